import Verif.Explain.Model
import Mathlib.Data.List.Basic
import Mathlib.Data.List.Perm.Subperm
/-!
# C28: both MUS algorithms return minimal unsatisfiable subsets
-/
namespace Verif.Explain
open Verif Verif.Tree
variable {α : Type}

/-! ## specification -/

/-- some assignment satisfies all formulas -/
def SatL (fs : List (Fm α)) : Prop := ∃ v : α → Bool, ∀ f ∈ fs, f.eval v = true

/-- the propositions are satisfiable together -/
def SatP (ps : List (Prp α)) : Prop := SatL (ps.map (·.fm))

/-- the calls of the solver answer rightly, unless cancelled (C18) -/
def OracleOk (call : Oracle α) : Prop := ∀ n fs b, call n fs = some b → (b = true ↔ SatL fs)

/-- the same pointer points to the same formula -/
def Coherent (ps : List (Prp α)) : Prop := ∀ p ∈ ps, ∀ q ∈ ps, p.ptr = q.ptr → p.fm = q.fm

/-- a minimal unsatisfiable subset of `ps`: its members are members of `ps` (with at most the same multiplicity), it is unsatisfiable, and
satisfiable without any one of its members -/
def IsMus (ps mus : List (Prp α)) : Prop :=
  mus.Subperm ps ∧ ¬ SatP mus ∧ ∀ i, i < mus.length → SatP (mus.eraseIdx i)

/-! ## lemmas -/

theorem SatL.mono {fs gs : List (Fm α)} (h : SatL gs) (hs : ∀ f ∈ fs, f ∈ gs) : SatL fs :=
  let ⟨v, hv⟩ := h; ⟨v, fun f hf => hv f (hs f hf)⟩

theorem SatP.mono {ps qs : List (Prp α)} (h : SatP qs) (hs : ∀ p ∈ ps, p ∈ qs) : SatP ps := by
  refine SatL.mono h fun f hf => ?_
  obtain ⟨p, hp, rfl⟩ := List.mem_map.1 hf
  exact List.mem_map.2 ⟨p, hs p hp, rfl⟩

theorem removeStep_skip {t : Prp α} {init : List (Prp α)} {q : Prp α} (hi : ∀ p ∈ init, p.ptr ≠ t.ptr) :
    ∀ (k j : Nat), j + k ≤ init.length →
      foldOpt (removeStep t) (init ++ [q], init.length + 1) (List.range' j k) = some (init ++ [q], init.length + 1)
  | 0, _, _ => rfl
  | k + 1, j, h => by
    rw [List.range'_succ, foldOpt]
    have h1 : (init ++ [q])[j]? = some (init[j]'(by omega)) := by
      rw [List.getElem?_append_left (by omega), List.getElem?_eq_getElem]
    have h2 : removeStep t (init ++ [q], init.length + 1) j = some (init ++ [q], init.length + 1) := by
      simp only [removeStep, h1]
      rw [if_neg (hi _ (List.getElem_mem _))]
    rw [h2]
    exact removeStep_skip hi k (j + 1) (by omega)

theorem foldOpt_append {A B : Type} (step : A → B → Option A) (l1 l2 : List B) (a : A) :
    foldOpt step a (l1 ++ l2) = (foldOpt step a l1).bind fun a => foldOpt step a l2 := by
  induction l1 generalizing a with
  | nil => rfl
  | cons b l1 ih =>
    simp only [List.cons_append, foldOpt]
    cases step a b with
    | none => rfl
    | some a => exact ih a

theorem removeTransition_last {t q : Prp α} {init : List (Prp α)} (hi : ∀ p ∈ init, p.ptr ≠ t.ptr) (hq : q.ptr = t.ptr) :
    removeTransition t (init ++ [q]) = some init := by
  simp only [removeTransition, List.length_append, List.length_cons, List.length_nil, Nat.zero_add]
  rw [List.range_succ, foldOpt_append, List.range_eq_range', removeStep_skip hi init.length 0 (by omega)]
  simp [foldOpt, removeStep, hq]

/-- what the inner loop does -/
theorem inner_spec {call : Oracle α} (hc : OracleOk call) (mus : List (Prp α)) : ∀ (rest : List (Prp α)) (n : Nat) (subset : List (Prp α)) (tr : Option (Prp α)),
    match inner call mus rest (n, subset, tr) with
    | .ok (_, s', t') => ∃ taken rest', rest = taken ++ rest' ∧ s' = subset ++ taken ∧ ¬ SatP (mus ++ s') ∧
        ((taken = [] ∧ t' = tr) ∨ ∃ init q, taken = init ++ [q] ∧ t' = some q ∧ SatP (mus ++ (subset ++ init)))
    | .error => SatP (mus ++ (subset ++ rest))
    | .canceled => True
    | .panic => False
    | .fuel => False
  | rest, n, subset, tr => by
    rw [inner.eq_def]
    dsimp only
    cases h : call n ((mus ++ subset).map (·.fm)) with
    | none => simp only []
    | some b =>
      have hb := hc _ _ _ h
      cases b with
      | false =>
        dsimp only
        refine ⟨[], rest, rfl, by simp, fun hs => ?_, Or.inl ⟨rfl, rfl⟩⟩
        exact absurd (hb.2 hs) (by simp)
      | true =>
        have hs : SatP (mus ++ subset) := hb.1 rfl
        dsimp only
        cases rest with
        | nil => simpa using hs
        | cons p rest =>
          dsimp only
          have ih := inner_spec hc mus rest (n + 1) (subset ++ [p]) (some p)
          revert ih
          cases inner call mus rest (n + 1, subset ++ [p], some p) with
          | ok r =>
            obtain ⟨n', s', t'⟩ := r
            rintro ⟨taken, rest', h1, h2, h3, h4⟩
            refine ⟨p :: taken, rest', by simp [h1], by simp [h2], h3, Or.inr ?_⟩
            rcases h4 with ⟨h4, h5⟩ | ⟨init, q, h4, h5, h6⟩
            · subst h4
              exact ⟨[], p, by simp, h5, by simpa using hs⟩
            · exact ⟨p :: init, q, by simp [h4], h5, by simpa using h6⟩
          | error => intro h; simpa using h
          | canceled => intro _; trivial
          | panic => exact id
          | fuel => exact id

/-- the invariant of the outer loop -/
def InsInv (ps cur mus : List (Prp α)) : Prop :=
  (mus ++ cur).Subperm ps ∧ (∀ i, i < mus.length → SatP (mus.eraseIdx i ++ cur))

theorem insLoop_spec {call : Oracle α} (hc : OracleOk call) {ps : List (Prp α)} (hp : Coherent ps) :
    ∀ (k n : Nat) (cur mus : List (Prp α)), cur.length < k → InsInv ps cur mus →
      match insLoop call k n cur mus with
      | .ok r => (cur = [] ∧ r = mus) ∨ (¬ SatP (mus ++ cur) ∧ IsMus ps r)
      | .error => SatP (mus ++ cur)
      | .canceled => True
      | .panic => False
      | .fuel => False
  | 0, _, _, _, h, _ => absurd h (by omega)
  | k + 1, n, [], mus, _, hi => by
    simp only [insLoop]
    exact Or.inl ⟨trivial, trivial⟩
  | k + 1, n, p :: cur, mus, hk, hi => by
    obtain ⟨hsub, hmin⟩ := hi
    have hin := inner_spec hc mus (p :: cur).reverse n [] none
    rw [insLoop]
    cases hx : inner call mus (p :: cur).reverse (n, [], none) with
    | error =>
      rw [hx] at hin
      dsimp only at hin ⊢
      exact hin.mono (by simp; intro q; rintro (h | h | h) <;> simp [h])
    | canceled => simp only []
    | panic => rw [hx] at hin; exact hin
    | fuel => rw [hx] at hin; exact hin
    | ok r =>
      obtain ⟨n', s', t'⟩ := r
      rw [hx] at hin
      dsimp only at hin ⊢
      obtain ⟨taken, rest', h1, h2, h3, h4⟩ := hin
      rw [List.nil_append] at h2
      subst h2
      -- the taken propositions are members of the current formula
      have hperm : s'.Subperm (p :: cur) := by
        have : s'.Sublist (p :: cur).reverse := by rw [h1]; exact List.sublist_append_left _ _
        exact this.subperm.trans (List.reverse_perm _).subperm
      have hun : ¬ SatP (mus ++ (p :: cur)) := fun h => h3 (h.mono (by
        intro q hq
        rcases List.mem_append.1 hq with h | h
        · exact List.mem_append_left _ h
        · exact List.mem_append_right _ (hperm.subset h)))
      rcases h4 with ⟨rfl, rfl⟩ | ⟨init, q, rfl, rfl, h6⟩
      · -- `mus` alone is unsatisfiable
        dsimp only
        have hr := insLoop_spec hc hp k n' [] mus (by simp at hk ⊢; omega) ⟨by
            simpa using (List.sublist_append_left mus (p :: cur)).subperm.trans hsub, fun i hi => (hmin i hi).mono (by simp; intro a ha; exact Or.inl ha)⟩
        have hmus : IsMus ps mus := ⟨(List.sublist_append_left mus (p :: cur)).subperm.trans hsub, by simpa using h3,
          fun i hi => (hmin i hi).mono (by simp; intro a ha; exact Or.inl ha)⟩
        revert hr
        cases insLoop call k n' [] mus with
        | ok r =>
          rintro (⟨_, rfl⟩ | h)
          · exact Or.inr ⟨hun, hmus⟩
          · exact Or.inr ⟨hun, h.2⟩
        | error => intro h; exact absurd h (by simpa using h3)
        | canceled => exact id
        | panic => exact id
        | fuel => exact id
      · -- a transition proposition was found
        dsimp only
        rw [List.nil_append] at h6
        have hps : ∀ x ∈ mus ++ (p :: cur), x ∈ ps := fun x hx => hsub.subset hx
        have hne : ∀ x ∈ init, x.ptr ≠ q.ptr := by
          intro x hxi he
          have hx1 : x ∈ ps := hps x (List.mem_append_right _ (hperm.subset (by simp [hxi])))
          have hq1 : q ∈ ps := hps q (List.mem_append_right _ (hperm.subset (by simp)))
          have hf := hp x hx1 q hq1 he
          refine h3 ?_
          obtain ⟨v, hv⟩ := h6
          refine ⟨v, fun f hf' => ?_⟩
          obtain ⟨y, hy, rfl⟩ := List.mem_map.1 hf'
          simp only [List.mem_append, List.mem_singleton] at hy
          rcases hy with hy | hy | rfl
          · exact hv _ (List.mem_map.2 ⟨y, by simp [hy], rfl⟩)
          · exact hv _ (List.mem_map.2 ⟨y, by simp [hy], rfl⟩)
          · rw [← hf]
            exact hv _ (List.mem_map.2 ⟨x, by simp [hxi], rfl⟩)
        rw [removeTransition_last hne rfl]
        dsimp only
        have hlen : init.length < k := by
          have h7 := hperm.length_le
          simp at h7 hk
          omega
        have hinv : InsInv ps init (mus ++ [q]) := by
          refine ⟨?_, fun i hi => ?_⟩
          · have h8 : (mus ++ [q] ++ init).Perm (mus ++ (init ++ [q])) := by
              rw [List.append_assoc]
              exact List.Perm.append_left _ (List.perm_append_comm)
            have h9 : (mus ++ (init ++ [q])).Subperm (mus ++ (p :: cur)) := (List.subperm_append_left mus).2 hperm
            exact (h8.subperm.trans h9).trans hsub
          · by_cases hi2 : i < mus.length
            · rw [List.eraseIdx_append_of_lt_length hi2]
              refine (hmin i hi2).mono ?_
              intro a ha
              simp only [List.mem_append, List.mem_singleton] at ha ⊢
              rcases ha with (ha | ha) | ha
              · exact Or.inl ha
              · subst ha
                exact Or.inr (hperm.subset (by simp))
              · exact Or.inr (hperm.subset (by simp [ha]))
            · have : i = mus.length := by simp at hi; omega
              subst this
              rw [List.eraseIdx_append_of_length_le (Nat.le_refl _)]
              simpa using h6
        have hr := insLoop_spec hc hp k n' init (mus ++ [q]) hlen hinv
        have hun2 : ¬ SatP (mus ++ [q] ++ init) := fun h => h3 (h.mono (by
          intro a ha
          simp only [List.mem_append, List.mem_singleton] at ha ⊢
          rcases ha with ha | ha | ha <;> simp [ha]))
        revert hr
        cases insLoop call k n' init (mus ++ [q]) with
        | ok r =>
          rintro (⟨rfl, rfl⟩ | h)
          · refine Or.inr ⟨hun, ?_, by simpa using hun2, fun i hi => ?_⟩
            · have := hinv.1; simpa using this
            · have := hinv.2 i hi; simpa using this
          · exact Or.inr ⟨hun, h.2⟩
        | error => intro h; exact absurd h hun2
        | canceled => exact id
        | panic => exact id
        | fuel => exact id

/-! ## deletion-based -/

theorem delInit_spec : ∀ (ps : List (Prp α)) (s : Sol α) (sts : List (Nat × Nat)),
    let r := delInit ps s sts
    r.1.content = s.content ++ ps.map (·.fm) ∧
    r.2 = sts ++ (List.range ps.length).map (fun i => (s.next + i, s.content.length + i)) ∧
    r.1.valid = s.valid ++ (List.range ps.length).map (fun i => (s.next + i, s.content.length + i))
  | [], s, sts => by simp [delInit]
  | p :: ps, s, sts => by
    have ih := delInit_spec ps ((s.save).1.add p.fm) (sts ++ [(s.save).2])
    simp only [delInit] at ih ⊢
    obtain ⟨h1, h2, h3⟩ := ih
    rw [h1, h2, h3]
    simp only [Sol.save, Sol.add, List.length_cons, List.range_succ_eq_map, List.map_cons, List.map_map, List.append_assoc,
      List.singleton_append, List.length_append, List.length_nil, Nat.zero_add, Nat.add_zero]
    refine ⟨trivial, ?_, ?_⟩
    · congr 2
      refine List.map_congr_left fun i _ => ?_
      simp only [Function.comp, Nat.succ_eq_add_one]
      congr 1 <;> omega
    · congr 2
      refine List.map_congr_left fun i _ => ?_
      simp only [Function.comp, Nat.succ_eq_add_one]
      congr 1 <;> omega

/-- the states saved by the first loop -/
def states (n : Nat) : List (Nat × Nat) := (List.range n).map fun i => (i, i)

theorem states_find (n i : Nat) (h : i < n) : (states n).findIdx? (fun v => v.1 == i) = some i := by
  rw [List.findIdx?_eq_some_iff_getElem]
  refine ⟨by simpa [states] using h, by simp [states], fun j hj => ?_⟩
  simp [states]
  omega

theorem foldl_add (mus : List (Prp α)) (s : Sol α) :
    mus.foldl (fun s q => s.add q.fm) s = { s with content := s.content ++ mus.map (·.fm) } := by
  induction mus generalizing s with
  | nil => simp
  | cons q mus ih => rw [List.foldl_cons, ih]; simp [Sol.add]

theorem delLoop_spec {call : Oracle α} (hc : OracleOk call) (ps : List (Prp α)) :
    ∀ (m n : Nat) (s : Sol α) (mus : List (Prp α)), m ≤ ps.length →
      (∃ k, m ≤ k ∧ s.valid = states k) → (ps.take m).map (·.fm) = s.content.take m →
      mus.Subperm (ps.drop m) → ¬ SatP (ps.take m ++ mus) →
      (∀ i, i < mus.length → SatP (ps.take m ++ mus.eraseIdx i)) →
      match delLoop call (((states ps.length).zip ps).take m).reverse n s mus with
      | .ok r => IsMus ps r
      | .canceled => True
      | .error => False
      | .panic => False
      | .fuel => False
  | 0, n, s, mus, _, _, _, hsub, hun, hmin => by
    simp only [List.take_zero, List.reverse_nil, delLoop]
    exact ⟨by simpa using hsub, by simpa using hun, by simpa using hmin⟩
  | m + 1, n, s, mus, hm, ⟨k, hk, hv⟩, hcont, hsub, hun, hmin => by
    obtain ⟨p, hp⟩ : ∃ p, ps[m]? = some p := ⟨ps[m]'(by omega), List.getElem?_eq_getElem _⟩
    have hz : ((states ps.length).zip ps)[m]? = some ((m, m), p) := by
      rw [List.getElem?_zip_eq_some]
      exact ⟨by rw [states, List.getElem?_map, List.getElem?_range (by omega)]; rfl, hp⟩
    have htake : ps.take (m + 1) = ps.take m ++ [p] := by rw [List.take_add_one, hp]; rfl
    have hdrop : ps.drop m = p :: ps.drop (m + 1) := by
      obtain ⟨hlt, he⟩ := List.getElem?_eq_some_iff.1 hp
      rw [← he]
      exact List.drop_eq_getElem_cons hlt
    rw [List.take_add_one, hz]
    simp only [Option.toList_some, List.reverse_append, List.reverse_cons, List.reverse_nil, List.nil_append, List.singleton_append, delLoop]
    have hl : s.load (m, m) = some { s with valid := states (m + 1), content := (ps.take m).map (·.fm) } := by
      have h2 : (states k).take (m + 1) = states (m + 1) := by
        simp only [states, ← List.map_take]
        rw [List.take_range, Nat.min_eq_left hk]
      have h3 : s.content.take m = (ps.take m).map (·.fm) := by
        have := congrArg (List.take m) hcont
        rw [← List.map_take, List.take_take, List.take_take, Nat.min_eq_left (by omega)] at this
        exact this.symm
      simp only [Sol.load, hv, states_find k m (by omega), h2, h3]
    rw [hl]
    simp only [foldl_add]
    have hcm : (ps.take m).map (·.fm) ++ mus.map (·.fm) = (ps.take m ++ mus).map (·.fm) := by simp
    have hv' : ∃ k, m ≤ k ∧ states (m + 1) = states k := ⟨m + 1, by omega, rfl⟩
    have hcont' : (ps.take m).map (·.fm) = ((ps.take m).map (·.fm) ++ mus.map (·.fm)).take m := by
      rw [List.take_append_of_le_length (by rw [List.length_map, List.length_take]; omega),
        List.take_of_length_le (l := List.map _ _) (by rw [List.length_map, List.length_take]; omega)]
    cases hcall : call n ((ps.take m).map (·.fm) ++ mus.map (·.fm)) with
    | none => simp only []
    | some b =>
      have hb := hc _ _ _ hcall
      rw [hcm] at hb
      change b = true ↔ SatP (ps.take m ++ mus) at hb
      cases b with
      | true =>
        dsimp only
        refine delLoop_spec hc ps m (n + 1) _ (mus ++ [p]) (by omega) hv' hcont' ?_ ?_ ?_
        · rw [hdrop]
          exact (List.perm_append_comm).subperm.trans ((List.subperm_cons p).2 hsub)
        · rw [htake] at hun
          intro h
          exact hun (h.mono (by intro a; simp only [List.mem_append, List.mem_singleton]; rintro ((h | h) | h) <;> simp [h]))
        · intro i hi
          by_cases hi2 : i < mus.length
          · rw [List.eraseIdx_append_of_lt_length hi2]
            have := hmin i hi2
            rw [htake] at this
            exact this.mono (by intro a; simp only [List.mem_append, List.mem_singleton]; rintro (h | h | h) <;> simp [h])
          · have : i = mus.length := by simp at hi; omega
            subst this
            rw [List.eraseIdx_append_of_length_le (Nat.le_refl _)]
            simpa using hb.1 rfl
      | false =>
        dsimp only
        refine delLoop_spec hc ps m (n + 1) _ mus (by omega) hv' hcont' ?_ ?_ ?_
        · rw [hdrop]
          exact hsub.trans (List.sublist_cons_self _ _).subperm
        · exact fun h => absurd (hb.2 h) (by simp)
        · intro i hi
          have := hmin i hi
          rw [htake] at this
          exact this.mono (by intro a; simp only [List.mem_append, List.mem_singleton]; rintro (h | h) <;> simp [h])

/-! ## C28 -/

/-- the ways an algorithm for MUSes may end -/
def MusResult (ps : List (Prp α)) : Res (List (Prp α)) → Prop
  | .ok mus => IsMus ps mus
  | .error => SatP ps
  | .canceled => True
  | .panic => False
  | .fuel => False

/-- **C28**, deletion-based: a result is a minimal unsatisfiable subset, an error means the propositions are satisfiable; for every handler and every
list of propositions. -/
theorem C28_deletion (start : Bool) {call : Oracle α} (hc : OracleOk call) (ps : List (Prp α)) :
    MusResult ps (deletion start call ps) := by
  unfold deletion
  cases start with
  | false => simp [MusResult]
  | true =>
    obtain ⟨h1, h2, h3⟩ := delInit_spec ps (Sol.new : Sol α) []
    simp only [Sol.new, List.nil_append, List.length_nil, Nat.zero_add] at h1 h2 h3
    simp only [if_true]
    cases hcall : call 0 (delInit ps Sol.new []).1.content with
    | none => simp [MusResult]
    | some b =>
      have hb := hc _ _ _ hcall
      rw [show (delInit ps Sol.new []).1.content = ps.map (·.fm) from h1] at hb
      cases b with
      | true => exact hb.1 rfl
      | false =>
        dsimp only
        have hst : (delInit ps (Sol.new : Sol α) []).2 = states ps.length := h2
        have := delLoop_spec hc ps ps.length 1 (delInit ps Sol.new []).1 [] (Nat.le_refl _) ⟨ps.length, Nat.le_refl _, h3⟩
          (by
            rw [List.take_length, show (delInit ps Sol.new []).1.content = ps.map (·.fm) from h1, List.take_of_length_le (by simp)])
          (by simp) (by
            simp only [List.append_nil, List.take_length]
            exact fun h => absurd (hb.2 h) (by simp)) (by simp)
        rw [List.take_of_length_le (by simp [states])] at this
        rw [hst]
        revert this
        cases delLoop call ((states ps.length).zip ps).reverse 1 (delInit ps Sol.new []).1 [] <;> simp [MusResult]

/-- **C28**, insertion-based, for non-empty lists. -/
theorem C28_insertion_partial (start : Bool) {call : Oracle α} (hc : OracleOk call) (ps : List (Prp α)) (hp : Coherent ps) (hne : ps ≠ []) :
    MusResult ps (insertion start call ps) := by
  unfold insertion
  cases start with
  | false => simp [MusResult]
  | true =>
    simp only [if_true]
    have := insLoop_spec hc hp (ps.length + 1) 0 ps [] (by omega) ⟨by simpa using List.Subperm.refl ps, by simp⟩
    revert this
    cases insLoop call (ps.length + 1) 0 ps [] with
    | ok r =>
      rintro (⟨h, _⟩ | h)
      · exact absurd h hne
      · exact h.2
    | error => intro h; simpa [MusResult] using h
    | canceled => exact id
    | panic => exact id
    | fuel => exact id

/-- without cancellation the algorithms decide: a MUS for unsatisfiable lists, an error for satisfiable ones -/
theorem C28_complete (call : Oracle α) (hc : OracleOk call) (hn : ∀ n fs, call n fs ≠ none) (ps : List (Prp α)) (hp : Coherent ps) (hne : ps ≠ []) :
    (SatP ps → insertion true call ps = .error ∧ deletion true call ps = .error) ∧
    (¬ SatP ps → (∃ m, insertion true call ps = .ok m ∧ IsMus ps m) ∧ ∃ m, deletion true call ps = .ok m ∧ IsMus ps m) := by
  have hinner : ∀ mus rest st, inner call mus rest st ≠ .canceled := by
    intro mus rest
    induction rest with
    | nil =>
      rintro ⟨n, s, t⟩
      rw [inner]
      cases h : call n (List.map (fun x => x.fm) (mus ++ s)) with
      | none => exact absurd h (hn _ _)
      | some b => cases b <;> simp
    | cons p rest ih =>
      rintro ⟨n, s, t⟩
      rw [inner]
      cases h : call n (List.map (fun x => x.fm) (mus ++ s)) with
      | none => exact absurd h (hn _ _)
      | some b =>
        cases b with
        | false => simp
        | true => exact ih _
  have hins : ∀ k n cur mus, insLoop call k n cur mus ≠ .canceled := by
    intro k
    induction k with
    | zero => intro n cur mus; cases cur <;> simp [insLoop]
    | succ k ih =>
      intro n cur mus
      cases cur with
      | nil => simp [insLoop]
      | cons p cur =>
        rw [insLoop]
        cases h : inner call mus (p :: cur).reverse (n, [], none) with
        | canceled => exact absurd h (hinner _ _ _)
        | ok r =>
          obtain ⟨n', s', t'⟩ := r
          cases t' with
          | none => exact ih _ _ _
          | some t =>
            dsimp only
            cases removeTransition t s' with
            | none => simp
            | some c => exact ih _ _ _
        | error => simp
        | panic => simp
        | fuel => simp
  have hdel : ∀ l n s mus, delLoop call l n s mus ≠ .canceled := by
    intro l
    induction l with
    | nil => intro n s mus; simp [delLoop]
    | cons x l ih =>
      obtain ⟨st, p⟩ := x
      intro n s mus
      rw [delLoop]
      cases s.load st with
      | none => simp
      | some s =>
        dsimp only
        cases h : call n (List.foldl (fun s q => s.add q.fm) s mus).content with
        | none => exact absurd h (hn _ _)
        | some b => cases b <;> exact ih _ _ _
  have h1 := C28_insertion_partial true hc ps hp hne
  have h2 := C28_deletion true hc ps
  have h3 : insertion true call ps ≠ .canceled := by
    simp only [insertion, if_true]; exact hins _ _ _ _
  have h4 : deletion true call ps ≠ .canceled := by
    simp only [deletion, if_true]
    cases h : call 0 (delInit ps Sol.new []).1.content with
    | none => exact absurd h (hn _ _)
    | some b =>
      cases b with
      | true => simp
      | false => exact hdel _ _ _ _
  have hmono : ∀ m, IsMus ps m → ¬ SatP ps := fun m hm hs => hm.2.1 (hs.mono fun p hp => hm.1.subset hp)
  constructor
  · intro hs
    constructor
    · revert h1 h3
      cases insertion true call ps <;> simp [MusResult]
      exact fun hm => hmono _ hm hs
    · revert h2 h4
      cases deletion true call ps <;> simp [MusResult]
      exact fun hm => hmono _ hm hs
  · intro hs
    constructor
    · revert h1 h3
      cases insertion true call ps <;> simp [MusResult, hs]
    · revert h2 h4
      cases deletion true call ps <;> simp [MusResult, hs]

/-- The empty list of propositions is satisfiable, and the insertion-based algorithm returns an (empty) "MUS" for it instead of the error. -/
theorem C28_insertion_empty_false (call : Oracle α) : insertion true call ([] : List (Prp α)) = .ok [] ∧ SatP ([] : List (Prp α)) :=
  ⟨rfl, fun _ => true, by simp⟩

/-! ### a case meeting the hypotheses -/

section Example
/-- an oracle by truth tables over two variables, as a test -/
private def tt : Oracle Bool := fun _ fs =>
  some ([(false, false), (false, true), (true, false), (true, true)].any fun (a, b) => fs.all (·.eval fun x => if x then a else b))

private theorem tt_ok : OracleOk tt := by
  intro n fs b h
  simp only [tt, Option.some.injEq] at h
  rw [← h]
  constructor
  · intro hx
    obtain ⟨⟨a, b⟩, _, hab⟩ := List.any_eq_true.1 hx
    exact ⟨_, fun f hf => List.all_eq_true.1 hab f hf⟩
  · rintro ⟨v, hv⟩
    refine List.any_eq_true.2 ⟨(v true, v false), ?_, List.all_eq_true.2 fun f hf => ?_⟩
    · cases v true <;> cases v false <;> decide
    · have : (fun x => if x = true then v true else v false) = v := by funext x; cases x <;> rfl
      rw [this]
      exact hv f hf

/-- `x`, `x ∨ y`, `¬x`, `y` -/
private def exPs : List (Prp Bool) := [⟨0, .lit ⟨true, true⟩⟩, ⟨1, .or [.lit ⟨true, true⟩, .lit ⟨false, true⟩]⟩, ⟨2, .lit ⟨true, false⟩⟩, ⟨3, .lit ⟨false, true⟩⟩]

private def ptrs : Res (List (Prp Bool)) → Option (List Nat)
  | .ok m => some (m.map (·.ptr))
  | _ => none

example : ptrs (insertion true tt exPs) = some [0, 2] ∧ ptrs (deletion true tt exPs) = some [2, 0] := by decide +kernel
example : Coherent exPs := by
  intro p hp q hq h
  simp only [exPs, List.mem_cons, List.not_mem_nil, or_false] at hp hq
  rcases hp with rfl | rfl | rfl | rfl <;> rcases hq with rfl | rfl | rfl | rfl <;> simp_all
example : ptrs (insertion true tt (exPs.take 2)) = none := by decide +kernel
end Example

end Verif.Explain
