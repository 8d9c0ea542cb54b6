import Verif.Solver.Add
/-! # Histories of the solver on formulas: the invariant -/
namespace Verif.Solver
open Verif
open Verif.Sat (Models lv lv_neg)

variable {α : Type} [DecidableEq α]

/-! ### the core solver under additions -/

/-- adding a clause makes no variables -/
theorem addClause_nVars {Φ : (Nat → Bool) → Prop} {s s' : Sat.S} {fuel : Nat} {ps : List Nat} {b : Bool} (h : Sat.RS Φ s) (hr : ∀ l ∈ ps, l / 2 < s.nVars)
    (he : Sat.addClause fuel s ps = some (s', b)) : s'.nVars = s.nVars := by
  unfold Sat.addClause at he
  by_cases hok : s.ok = false
  · rw [if_pos hok] at he; cases he; rfl
  rw [if_neg hok] at he
  have hok : s.ok = true := by simpa using hok
  obtain ⟨r1, r2, r3, r4⟩ := h.run hok
  have hperm : (ps.insertionSort (· ≤ ·)).Perm ps := List.perm_insertionSort _ _
  have hal := Sat.addLoop_spec (s := s) (ps := ps) (ps.insertionSort (· ≤ ·)) none [] (fun q hq => hperm.mem_iff.1 hq) (by simp) (List.pairwise_insertionSort _ _)
    (by simp) (by simp) (by simp) (Or.inl ⟨rfl, rfl⟩)
  cases hl : Sat.addLoop s (ps.insertionSort (· ≤ ·)) none [] with
  | none => rw [hl] at he; cases he; rfl
  | some out =>
    rw [hl] at he hal
    obtain ⟨hnd, hout, _, hcov⟩ := hal
    match out, he with
    | [], he => cases he; rfl
    | [l], he =>
      dsimp only at he
      obtain ⟨hlp, hlv⟩ := hout l (by simp)
      have hpe : Sat.PI (fun _ => False) Sat.TT (Sat.enqueue s l none) (fun _ _ => False) :=
        (r1.weaken fun u hu => hu.elim).enqueue (Or.inl hlv) (hr l hlp) (fun e => by rw [h.dl0] at e; omega) (fun _ u hu => hu.elim) trivial (fun _ e => by cases e)
      cases hp : Sat.propagate fuel (Sat.enqueue s l none) with
      | none => rw [hp] at he; cases he
      | some x =>
        obtain ⟨s1, r⟩ := x
        rw [hp] at he
        cases he
        obtain ⟨f, _⟩ := Sat.propagate_spec fuel _ s1 r hpe hp
        exact f.nVars
    | a :: b' :: rest, he =>
      dsimp only at he
      injection he with he
      injection he with e1 e2
      subst e1
      obtain ⟨q1, q2, q3, q4, q5, q6, q7, q8, q9, q10, q11, q12, q13, _⟩ := Sat.attach_cls { s with clauses := s.clauses ++ [s.nextId] } ⟨a, b', rest, none⟩
      exact q13

theorem run_adds {m : Bool} {fuel : Nat} : ∀ {ops : List Sat.Op} {w w' : Sat.W} {a : Sat.A}, Sat.Inv m w a →
    (∀ o ∈ ops, o = .newVar ∨ (∃ c, o = .add c) ∨ m = true ∧ ∃ vs k, o = .atMost vs k ∧ vs.Nodup) → w.run fuel ops = some w' →
    Sat.Inv m w' { a with cur := a.cur ++ clsOf ops } ∧ w'.s.nVars = w.s.nVars + ops.countP isNew ∧ w'.handles = w.handles
  | [], w, w', a, h, _, he => by
    cases he
    exact ⟨by simpa [clsOf] using h, rfl, rfl⟩
  | o :: os, w, w', a, h, ho, he => by
    unfold Sat.W.run at he
    cases hs : w.step fuel o with
    | none => rw [hs] at he; cases he
    | some x =>
      obtain ⟨w1, r⟩ := x
      rw [hs] at he
      dsimp only at he
      rcases ho o List.mem_cons_self with rfl | ⟨c, rfl⟩ | ⟨hm, vs, k, rfl, hnd⟩
      · obtain ⟨h1, _⟩ := Sat.step_spec (o := .newVar) h trivial hs
        have h1 : Sat.Inv m w1 a := h1
        obtain ⟨a1, a2, a3⟩ := run_adds h1 (fun o ho' => ho o (List.mem_cons_of_mem _ ho')) he
        cases hs
        refine ⟨a1, ?_, a3⟩
        rw [a2, List.countP_cons]
        show w.s.nVars + 1 + _ = _
        simp [isNew]; omega
      · obtain ⟨h1, _⟩ := Sat.step_spec (o := .add c) h trivial hs
        have h1 : Sat.Inv m w1 { a with cur := a.cur ++ [c] } := h1
        obtain ⟨a1, a2, a3⟩ := run_adds h1 (fun o ho' => ho o (List.mem_cons_of_mem _ ho')) he
        unfold Sat.W.step at hs
        dsimp only at hs
        by_cases hr : ∀ l ∈ c, l / 2 < w.s.nVars
        · rw [if_pos hr] at hs
          cases hc : Sat.addClause fuel w.s c with
          | none => rw [hc] at hs; cases hs
          | some y =>
            rw [hc] at hs
            cases hs
            have hn := addClause_nVars h.rs hr hc
            refine ⟨?_, ?_, a3⟩
            · have e : clsOf (.add c :: os) = c :: clsOf os := by simp [clsOf, clsOf1]
              rw [e]
              simpa [List.append_assoc] using a1
            · rw [a2, List.countP_cons]
              show y.1.nVars + _ = _
              rw [hn]; simp [isNew]
        · rw [if_neg hr] at hs; cases hs
      · obtain ⟨h1, _⟩ := Sat.step_spec (o := .atMost vs k) h ⟨hm, hnd⟩ hs
        have h1 : Sat.Inv m w1 { a with cur := a.cur ++ Sat.amCnf vs k } := h1
        obtain ⟨a1, a2, a3⟩ := run_adds h1 (fun o ho' => ho o (List.mem_cons_of_mem _ ho')) he
        unfold Sat.W.step at hs
        dsimp only at hs
        by_cases hr : ∀ v ∈ vs, v < w.s.nVars
        · rw [if_pos hr] at hs
          cases hc : Sat.addAtMost fuel w.s (vs.map (2 * ·)) k with
          | none => rw [hc] at hs; cases hs
          | some y =>
            rw [hc] at hs
            cases hs
            have hn := (Sat.addAtMost_spec h.rs (hnd.map fun x y e => by omega) (fun l hl => by obtain ⟨v, _, rfl⟩ := List.mem_map.1 hl; omega) (fun l hl => by
              obtain ⟨v, hv, rfl⟩ := List.mem_map.1 hl
              have := hr v hv
              omega) hc).2.2
            refine ⟨?_, ?_, a3⟩
            · have e : clsOf (.atMost vs k :: os) = Sat.amCnf vs k ++ clsOf os := by simp [clsOf, clsOf1]
              rw [e]
              simpa [List.append_assoc] using a1
            · rw [a2, List.countP_cons]
              show y.nVars + _ = _
              rw [hn]; simp [isNew]
        · rw [if_neg hr] at hs; cases hs

/-! ### specification -/

/-- abstract solver: the formulas at present, those at the times of the saves, the saves that may be loaded -/
structure FA (α : Type) where
  cur : List (Fm α) := []
  snaps : List (List (Fm α)) := []
  live : List Nat := []

/-- what the operations mean.  A call with additional formulas saves and loads a state of its own. -/
def FA.step (b : FA α) : FOp α → FA α
  | .add f => { b with cur := b.cur ++ [f] }
  | .call _ _ props => if props = [] then b else { b with snaps := b.snaps ++ [b.cur], live := b.live ++ [b.snaps.length] }
  | .save => { b with snaps := b.snaps ++ [b.cur], live := b.live ++ [b.snaps.length] }
  | .load k => if k ∈ b.live then { b with cur := b.snaps[k]?.getD [], live := b.live.takeWhile (· ≠ k) ++ [k] } else b

/-! ### invariant -/

structure FInv (m : Bool) (t : FS α) (a : Sat.A) (b : FA α) : Prop where
  core : Sat.Inv m t.w a
  len : t.slots.length = t.w.s.nVars
  sem : Sem t.slots a.cur b.cur t.k
  cache : COk a.cur t.slots t.cache
  live : b.live = a.live
  snaps : b.snaps.length = a.snaps.length
  old : ∀ j ∈ a.live, ∀ st, t.w.handles[j]? = some st → ∀ Γ F, a.snaps[j]? = some Γ → b.snaps[j]? = some F → Sem (t.slots.take st.nVars) Γ F t.k

omit [DecidableEq α] in
theorem take_prefix_eq {l l' : List (Slot α)} (h : l <+: l') {n : Nat} (hn : n ≤ l.length) : l'.take n = l.take n := by
  obtain ⟨t, rfl⟩ := h
  rw [List.take_append_of_le_length hn]

theorem finv_init {m : Bool} : FInv m ({} : FS α) {} {} := by
  refine ⟨Sat.inv_init, rfl, ⟨?_, ?_, ?_, ?_, ?_⟩, ⟨?_, ?_, ?_⟩, rfl, rfl, ?_⟩
  · intro c hc; cases hc
  · intro i j e hi; simp at hi
  · intro n hn; cases hn
  · intro u v _ _ f hf; cases hf
  · exact fun v _ => ⟨fun _ => false, fun i x hi => by simp at hi, fun i x hi => by simp at hi, fun c hc => (by cases hc)⟩
  · intro g e h; simp at h
  · intro g e h; simp at h
  · intro g e h; simp at h
  · intro j hj; cases hj

/-- the state of a live handle has no more variables -/
theorem FInv.nv {m : Bool} {t : FS α} {a : Sat.A} {b : FA α} (h : FInv m t a b) {j : Nat} (hj : j ∈ a.live) {st : Sat.Saved} (hs : t.w.handles[j]? = some st) : st.nVars ≤ t.slots.length := by
  obtain ⟨st', Γ, e1, _, e3⟩ := h.core.kept j hj
  rw [hs] at e1
  cases e1
  rw [h.len]; exact e3.nv

/-- formulas were turned into calls of the core solver, which are executed now -/
theorem FInv.flush {m : Bool} {t t' : FS α} {a : Sat.A} {b : FA α} (h : FInv m t a b) {s : PS α} {F : List (Fm α)} {k fuel : Nat} (hk : t.k ≤ k) (hp : t.slots <+: s.slots)
    (hs : Sem s.slots (a.cur ++ clsOf s.ops) F k) (hc : COk (a.cur ++ clsOf s.ops) s.slots s.cache) (hb : BalM m t.slots.length s) (he : t.flush fuel s k = some t') :
    FInv m t' { a with cur := a.cur ++ clsOf s.ops } { b with cur := F } ∧ t'.w.handles = t.w.handles ∧ t'.slots = s.slots := by
  unfold FS.flush at he
  cases hr : Sat.W.run fuel t.w s.ops with
  | none => rw [hr] at he; cases he
  | some w =>
    rw [hr] at he
    cases he
    obtain ⟨r1, r2, r3⟩ := run_adds h.core hb.1 hr
    refine ⟨⟨r1, ?_, hs, hc, h.live, h.snaps, fun j hj st hst Γ G h1 h2 => ?_⟩, r3, rfl⟩
    · show s.slots.length = w.s.nVars
      rw [hb.2, r2, h.len]
    · have hst : w.handles[j]? = some st := hst
      rw [r3] at hst
      show Sem (s.slots.take st.nVars) Γ G k
      rw [take_prefix_eq hp (h.nv hj hst)]
      exact (h.old j hj st hst Γ G h1 h2).mono hk

theorem FInv.add {E : Env α} (hE : ∀ ls l, l ∈ E.srt ls ↔ l ∈ ls) {t t' : FS α} {a : Sat.A} {b : FA α} (h : FInv E.atMost t a b) {f : Fm α} (hf : Addable E f) {fuel : Nat}
    (he : t.add E fuel f = some t') : ∃ Γ, FInv E.atMost t' { a with cur := a.cur ++ Γ } { b with cur := b.cur ++ [f] } ∧ t'.w.handles = t.w.handles ∧ t.slots <+: t'.slots := by
  unfold FS.add at he
  cases hs : addFormula E f t.k ⟨t.slots, t.cache, []⟩ with
  | none => rw [hs] at he; cases he
  | some x =>
    obtain ⟨s, k⟩ := x
    rw [hs] at he
    obtain ⟨h1, h2, h3, h4, h5⟩ := addFormula_spec hE hf h.sem h.cache hs
    obtain ⟨i1, i2, i3⟩ := h.flush h1 h2 h3 h4 h5 he
    exact ⟨_, i1, i2, by rw [i3]; exact h2⟩

theorem FInv.addAll {E : Env α} (hE : ∀ ls l, l ∈ E.srt ls ↔ l ∈ ls) {fuel : Nat} : ∀ {fs : List (Fm α)} {t t' : FS α} {a : Sat.A} {b : FA α}, FInv E.atMost t a b → (∀ f ∈ fs, Addable E f) →
    FS.addAll E fuel t fs = some t' → ∃ Γ, FInv E.atMost t' { a with cur := a.cur ++ Γ } { b with cur := b.cur ++ fs } ∧ t'.w.handles = t.w.handles ∧ t.slots <+: t'.slots
  | [], t, t', a, b, h, _, he => by
    cases he
    exact ⟨[], by simpa using h, rfl, List.prefix_refl _⟩
  | f :: fs, t, t', a, b, h, hf, he => by
    rw [FS.addAll] at he
    cases hs : t.add E fuel f with
    | none => rw [hs] at he; cases he
    | some t1 =>
      rw [hs] at he
      obtain ⟨Γ, h1, h2, h3⟩ := h.add hE (hf f List.mem_cons_self) hs
      obtain ⟨Δ, i1, i2, i3⟩ := FInv.addAll hE h1 (fun g hg => hf g (List.mem_cons_of_mem _ hg)) he
      refine ⟨Γ ++ Δ, by simpa [List.append_assoc] using i1, i2.trans h2, h3.trans i3⟩

theorem FInv.live_lt {m : Bool} {t : FS α} {a : Sat.A} {b : FA α} (h : FInv m t a b) {j : Nat} (hj : j ∈ a.live) : j < t.w.handles.length := by
  obtain ⟨st, _, e, _⟩ := h.core.kept j hj
  exact (List.getElem?_eq_some_iff.1 e).1

theorem FInv.save {m : Bool} {t : FS α} {a : Sat.A} {b : FA α} (h : FInv m t a b) : FInv m t.save (a.step .save) (b.step .save) := by
  obtain ⟨h1, _⟩ := Sat.step_spec (fuel := 0) (o := .save) h.core trivial rfl
  refine ⟨h1, h.len, h.sem, h.cache, ?_, ?_, fun j hj st hst Γ F e1 e2 => ?_⟩
  · show b.live ++ [b.snaps.length] = a.live ++ [a.snaps.length]
    rw [h.live, h.snaps]
  · show (b.snaps ++ [_]).length = (a.snaps ++ [_]).length
    simp [h.snaps]
  · have hj : j ∈ a.live ++ [a.snaps.length] := hj
    have hst : (t.w.handles ++ [(Sat.saveState t.w.s).2])[j]? = some st := hst
    have e1 : (a.snaps ++ [a.cur])[j]? = some Γ := e1
    have e2 : (b.snaps ++ [b.cur])[j]? = some F := e2
    have hl := h.core.len
    have hl' := h.snaps
    rcases List.mem_append.1 hj with hj | hj
    · have hlt := h.live_lt hj
      rw [List.getElem?_append_left hlt] at hst
      rw [List.getElem?_append_left (by omega)] at e1 e2
      exact h.old j hj st hst Γ F e1 e2
    · rw [List.mem_singleton.1 hj] at hst e1 e2
      rw [List.getElem?_append_right (by omega), hl, Nat.sub_self] at hst
      rw [List.getElem?_append_right (by omega), Nat.sub_self] at e1
      rw [List.getElem?_append_right (by omega), hl', Nat.sub_self] at e2
      cases hst
      cases e1
      cases e2
      show Sem (t.slots.take t.w.s.nVars) a.cur b.cur t.k
      rw [← h.len, List.take_length]
      exact h.sem

omit [DecidableEq α] in
theorem load_inv {t t' : FS α} {fuel k : Nat} {r : Bool} (he : t.load fuel k = some (t', r)) : ∃ w, t.w.step fuel (.load k) = some (w, .bool r) ∧
    t' = if r then ⟨w, t.slots.take w.s.nVars, [], t.k⟩ else { t with w := w } := by
  unfold FS.load at he
  cases hs : t.w.step fuel (.load k) with
  | none => rw [hs] at he; cases he
  | some x =>
    obtain ⟨w, ans⟩ := x
    rw [hs] at he
    cases ans with
    | bool c => cases c <;> · cases he; exact ⟨w, rfl, rfl⟩
    | _ => cases he

theorem FInv.load {m : Bool} {t t' : FS α} {a : Sat.A} {b : FA α} (h : FInv m t a b) {fuel k : Nat} {r : Bool} (he : t.load fuel k = some (t', r)) :
    FInv m t' (a.step (.load k)) (b.step (.load k)) ∧ (r = true ↔ k ∈ b.live) ∧ t'.w.handles = t.w.handles := by
  obtain ⟨w, hs, rfl⟩ := load_inv he
  obtain ⟨h1, h2⟩ := Sat.step_spec (o := .load k) h.core trivial hs
  have h3 : r = true ↔ k ∈ a.live := h2
  clear h2
  unfold Sat.W.step at hs
  dsimp only at hs
  cases hh : t.w.handles[k]? with
  | none => rw [hh] at hs; cases hs
  | some st =>
    rw [hh] at hs
    dsimp only at hs
    cases hl : Sat.loadState fuel t.w.s st with
    | none => rw [hl] at hs; cases hs
    | some x =>
      obtain ⟨s', c⟩ := x
      rw [hl] at hs
      injection hs with hs
      injection hs with ew ec
      injection ec with ec
      have ec : c = r := ec
      subst ew ec
      have hst : b.step (.load k) = if k ∈ a.live then { b with cur := b.snaps[k]?.getD [], live := a.live.takeWhile (· ≠ k) ++ [k] } else b := by
        show (if k ∈ b.live then _ else _) = _
        rw [h.live]
      have hsa : a.step (.load k) = if k ∈ a.live then { a with cur := a.snaps[k]?.getD [], live := a.live.takeWhile (· ≠ k) ++ [k] } else a := rfl
      refine ⟨?_, by rw [h3, h.live], by cases c <;> rfl⟩
      by_cases hk : k ∈ a.live
      · have hr := h3.2 hk
        subst hr
        rw [hst, if_pos hk]
        rw [hsa, if_pos hk] at h1 ⊢
        rw [if_pos rfl]
        obtain ⟨i, hi⟩ := Sat.findIdx_mem.2 hk
        have hi' : t.w.s.valid.findIdx? (· == st.id) = some i := by rw [h.core.valid, h.core.ids k st hh]; exact hi
        obtain ⟨st', Γ, e1, e2, e3⟩ := h.core.kept k hk
        rw [hh] at e1
        cases e1
        obtain ⟨l1, l2, l3, _⟩ := Sat.load_spec h.core.rs e3 hi' hl
        have hF : ∃ F, b.snaps[k]? = some F := by
          have : k < a.snaps.length := (List.getElem?_eq_some_iff.1 e2).1
          exact ⟨_, List.getElem?_eq_getElem (by rw [h.snaps]; exact this)⟩
        obtain ⟨F, hF⟩ := hF
        have hsem := h.old k hk st hh Γ F e2 hF
        have hnv := h.nv hk hh
        refine ⟨h1, ?_, ?_, ⟨?_, ?_, ?_⟩, rfl, h.snaps, fun j hj sj hsj Δ G f1 f2 => ?_⟩
        · show (t.slots.take s'.nVars).length = s'.nVars
          rw [List.length_take, l3]; omega
        · show Sem (t.slots.take s'.nVars) (a.snaps[k]?.getD []) (b.snaps[k]?.getD []) t.k
          rw [l3, e2, hF]; exact hsem
        · intro g e hg; simp at hg
        · intro g e hg; simp at hg
        · intro g e hg; simp at hg
        · show Sem ((t.slots.take s'.nVars).take sj.nVars) Δ G t.k
          have hpre : a.live.takeWhile (· ≠ k) ++ [k] <+: a.live := by rw [← Sat.take_findIdx hi]; exact List.take_prefix _ _
          have hjl : j ∈ a.live := hpre.subset hj
          have hle : sj.nVars ≤ st.nVars := by
            have hj : j ∈ a.live.takeWhile (· ≠ k) ++ [k] := hj
            rcases List.mem_append.1 hj with hj | hj
            · have := h.core.ord.sublist hpre.sublist
              rw [List.pairwise_append] at this
              exact (this.2.2 j hj k (by simp) sj st hsj hh).nv
            · rw [List.mem_singleton.1 hj] at hsj
              have hsj : t.w.handles[k]? = some sj := hsj
              rw [hh] at hsj
              cases hsj
              exact Nat.le_refl _
          rw [List.take_take, l3, Nat.min_eq_left hle]
          exact h.old j hjl sj hsj Δ G f1 f2
      · have hr : c = false := by
          cases c with
          | false => rfl
          | true => exact absurd (h3.1 rfl) hk
        subst hr
        rw [hst, if_neg hk]
        rw [hsa, if_neg hk] at h1 ⊢
        rw [if_neg (by simp)]
        have hnv : s'.nVars = t.w.s.nVars := by
          unfold Sat.loadState at hl
          cases hf : t.w.s.valid.findIdx? (· == st.id) with
          | none => rw [hf] at hl; cases hl; rfl
          | some i =>
            rw [h.core.valid, h.core.ids k st hh] at hf
            exact absurd (Sat.findIdx_mem.1 ⟨i, hf⟩) hk
        exact ⟨h1, by rw [h.len]; exact hnv.symm, h.sem, h.cache, h.live, h.snaps, h.old⟩

end Verif.Solver
