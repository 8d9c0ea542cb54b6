import Verif.Sat.AtMost
import Mathlib.Data.List.Sublists
/-!
# C17 – C21: the SAT solver as seen from outside

The specification is the machine `A`, which keeps lists of clauses only.  The theorems hold for all histories of calls of the solver.
-/
namespace Verif.Sat

/-! ## specification -/

/-- `u` is a model of the clauses -/
def Models (Γ : List (List Nat)) (u : Nat → Bool) : Prop := ∀ c ∈ Γ, Sat u c

/-- the constraint “at most `k` of the variables are true” as clauses: of any `k + 1` variables one is false -/
def amCnf (vs : List Nat) (k : Int) : List (List Nat) := if k < 0 then [[]] else (vs.sublistsLen (k.toNat + 1)).map fun t => t.map fun v => 2 * v + 1

/-- abstract solver: the present clauses, the clauses at the times of the saves, the saves that may be loaded -/
structure A where
  cur : List (List Nat) := []
  snaps : List (List (List Nat)) := []
  live : List Nat := []

/-- an uninterpreted run of the solver: configuration, choices of the heuristics, answers of the handler -/
structure Run where
  cfg : Min
  O : Nat → Choice
  start : Bool := true
  finish : Bool := true

/-- operations on a solver -/
inductive Op
  | newVar
  | add (c : List Nat)
  | atMost (vs : List Nat) (k : Int)
  | solve (r : Run) (asm : List Nat)
  | save
  | load (k : Nat)

/-- what the operations mean -/
def A.step (a : A) : Op → A
  | .newVar => a
  | .add c => { a with cur := a.cur ++ [c] }
  | .atMost vs k => { a with cur := a.cur ++ amCnf vs k }
  | .solve _ _ => a
  | .save => { a with snaps := a.snaps ++ [a.cur], live := a.live ++ [a.snaps.length] }
  | .load k => if k ∈ a.live then { a with cur := a.snaps[k]?.getD [], live := a.live.takeWhile (· ≠ k) ++ [k] } else a

def A.run (ops : List Op) : A := ops.foldl A.step {}

/-! ## the solver under a history of operations -/

/-- the solver together with the states handed out -/
structure W where
  s : S := S.init
  handles : List Saved := []

/-- what an operation returns -/
inductive Ans
  | unit
  | bool (b : Bool)
  | verdict (r : Option Bool)

/-- an operation on the solver; `none` if a literal is out of range, the handle was never handed out (both cannot be written in Go without a panic) or the fuel
does not suffice -/
def W.step (fuel : Nat) (w : W) : Op → Option (W × Ans)
  | .newVar => some ({ w with s := newVar w.s }, .unit)
  | .add c => if ∀ l ∈ c, l / 2 < w.s.nVars then (addClause fuel w.s c).map fun x => ({ w with s := x.1 }, .bool x.2) else none
  | .atMost vs k => if ∀ v ∈ vs, v < w.s.nVars then (addAtMost fuel w.s (vs.map (2 * ·)) k).map fun s => ({ w with s := s }, .unit) else none
  | .solve r asm => if ∀ l ∈ asm, l / 2 < w.s.nVars then (Sat.solve r.cfg fuel r.O r.start r.finish asm w.s).map fun x => ({ w with s := x.2 }, .verdict x.1) else none
  | .save => some (⟨(saveState w.s).1, w.handles ++ [(saveState w.s).2]⟩, .unit)
  | .load k => match w.handles[k]? with
    | none => none
    | some st => (loadState fuel w.s st).map fun x => ({ w with s := x.1 }, .bool x.2)

def W.run (fuel : Nat) : W → List Op → Option W
  | w, [] => some w
  | w, o :: os => match w.step fuel o with
    | none => none
    | some (w, _) => W.run fuel w os

/-- the handler never cancels at a conflict (it may cancel at the start and at the end of a call); in histories with at-most clauses (`m`) the learnt clauses are not
minimised with `ClauseMinBasic` (`C18_atMost_false`) -/
def Run.Calm (m : Bool) (r : Run) : Prop := (∀ n, (r.O n).resume = true) ∧ (m = true → r.cfg ≠ .basic)

/-- the calls are as above; at-most clauses are over different variables -/
def Op.Calm (m : Bool) : Op → Prop
  | .solve r _ => r.Calm m
  | .atMost vs _ => m = true ∧ vs.Nodup
  | _ => True

/-! ## the invariant of histories -/

structure Inv (m : Bool) (w : W) (a : A) : Prop where
  rs : RS (Models a.cur) w.s
  valid : w.s.valid = a.live
  sid : w.s.stateId = w.handles.length
  len : a.snaps.length = w.handles.length
  ids : ∀ (k : Nat) st, w.handles[k]? = some st → st.id = k
  kept : ∀ k ∈ a.live, ∃ st Γ, w.handles[k]? = some st ∧ a.snaps[k]? = some Γ ∧ Kept w.s st (Models Γ)
  ord : a.live.Pairwise fun k k' => ∀ st st', w.handles[k]? = some st → w.handles[k']? = some st' → Before st st'
  noam : m = false → w.s.ams = []

theorem Inv.cf {mb : Bool} {w : W} {a : A} {r : Run} (h : Inv mb w a) (hc : r.Calm mb) (e : r.cfg = .basic) : w.s.ams = [] := by
  apply h.noam
  cases mb with
  | false => rfl
  | true => exact absurd e (hc.2 rfl)

theorem RS.congr {Φ Ψ : (Nat → Bool) → Prop} {s : S} (h : RS Φ s) (e : ∀ u, Φ u ↔ Ψ u) : RS Ψ s := by
  have : Φ = Ψ := funext fun u => propext (e u)
  rwa [← this]

theorem rs_init : RS (Models []) S.init := by
  have hp : PI (Models []) TT S.init (fun _ _ => False) := by
    refine ⟨⟨?_, ?_, ?_, ?_, ?_, ?_, ?_, ?_, ?_, ?_, ?_⟩, ⟨?_, ?_, ?_, ?_, ?_, ?_, ?_, ?_, ?_⟩, ⟨?_, ?_, ?_, ?_⟩, ?_, ?_, ?_⟩
    · intro c hc; cases hc
    · exact List.Pairwise.nil
    · intro c hc; cases hc
    · intro c hc; cases hc
    · intro l; exact List.Pairwise.nil
    · intro l c b hb; cases hb
    · intro c hc; cases hc
    · intro l c b hb; cases hb
    · intro c hc; cases hc
    · intro v; rfl
    · intro c hc; cases hc
    · intro l
      constructor
      · intro h; unfold S.value at h; split at h <;> cases h
      · intro h; cases h
    · intro l hl; cases hl
    · intro l rest h; exact absurd h.length_le (by simp [S.init])
    · intro l rest h; exact absurd h.length_le (by simp [S.init])
    · intro l rest h; exact absurd h.length_le (by simp [S.init])
    · exact List.Pairwise.nil
    · intro x hx; cases hx
    · intro v hv; cases hv
    · exact Nat.le_refl _
    · intro c hc; cases hc
    · intro l hl; cases hl
    · intro c hc; cases hc
    · intro l hl; cases hl
    · intro l rest h; exact absurd h.length_le (by simp [S.init])
    · intro c hc; cases hc
    · refine ⟨fun c hc => (by cases hc), fun _ _ => rfl, List.Pairwise.nil, fun c hc => (by cases hc), fun c hc => (by cases hc), fun l c b hb => (by cases hb), fun c hc => (by cases hc),
        fun c hc => (by cases hc), fun c hc => (by cases hc), fun c hc => (by cases hc), fun l c b k hb => (by cases hb), fun c hc => (by cases hc), fun c hc => (by cases hc),
        fun c hc => (by cases hc), fun c hc => (by cases hc), fun x hx => (by cases hx)⟩
  exact ⟨rfl, ⟨_, hp⟩, fun v hv => (by cases hv), fun _ => ⟨hp, rfl, fun l hl => (by cases hl), fun u _ c hc => (by cases hc)⟩, fun e => (by cases e)⟩

theorem inv_init {m : Bool} : Inv m {} {} := ⟨rs_init, rfl, rfl, rfl, by simp, by simp, List.Pairwise.nil, fun _ => rfl⟩

theorem take_findIdx {k : Nat} : ∀ {l : List Nat} {i : Nat}, l.findIdx? (· == k) = some i → l.take (i + 1) = l.takeWhile (· ≠ k) ++ [k]
  | [], _, h => by simp at h
  | x :: xs, i, h => by
    rw [List.findIdx?_cons] at h
    by_cases hx : x = k
    · subst hx
      simp at h
      subst h
      simp
    · rw [if_neg (by simpa using hx)] at h
      cases hf : xs.findIdx? (· == k) with
      | none => rw [hf] at h; cases h
      | some j =>
        rw [hf] at h
        injection h with h
        subst h
        rw [List.take_succ_cons, take_findIdx hf, List.takeWhile_cons_of_pos (by simpa using hx)]
        rfl

theorem findIdx_mem {k : Nat} {l : List Nat} : (∃ i, l.findIdx? (· == k) = some i) ↔ k ∈ l := by
  rw [← Option.isSome_iff_exists, List.findIdx?_isSome]
  simp

theorem inv_ext {m : Bool} {w : W} {a : A} {s' : S} {cur : List (List Nat)} (h : Inv m w a) (hr : RS (Models cur) s') (he : Ext w.s s') (ha : m = false → s'.ams = w.s.ams) :
    Inv m { w with s := s' } { a with cur := cur } :=
  ⟨hr, he.valid.trans h.valid, he.stateId.trans h.sid, h.len, h.ids, fun k hk => by
    obtain ⟨st, Γ, h1, h2, h3⟩ := h.kept k hk
    exact ⟨st, Γ, h1, h2, h3.ext he⟩, h.ord, fun e => (ha e).trans (h.noam e)⟩

theorem models_append {Γ : List (List Nat)} {c : List Nat} {u : Nat → Bool} : Models Γ u ∧ Sat u c ↔ Models (Γ ++ [c]) u := by
  unfold Models
  constructor
  · rintro ⟨h1, h2⟩ x hx
    rcases List.mem_append.1 hx with hx | hx
    · exact h1 x hx
    · rw [List.mem_singleton.1 hx]; exact h2
  · exact fun h => ⟨fun x hx => h x (List.mem_append_left _ hx), h c (by simp)⟩

theorem lv_pos (u : Nat → Bool) (v : Nat) : lv u (2 * v) = u v := by
  unfold lv
  rw [if_pos (by omega), show 2 * v / 2 = v by omega]

theorem lv_negv (u : Nat → Bool) (v : Nat) : lv u (2 * v + 1) = !u v := by
  unfold lv
  rw [if_neg (by omega), show (2 * v + 1) / 2 = v by omega]

theorem count_pos (u : Nat → Bool) (vs : List Nat) : ((vs.map (2 * ·)).filter (lv u)).length = (vs.filter u).length := by
  rw [List.filter_map, List.length_map]
  congr 2
  funext v
  exact lv_pos u v

/-- the clauses mean that at most `k` of the variables are true -/
theorem models_amCnf {vs : List Nat} {k : Int} {u : Nat → Bool} : Models (amCnf vs k) u ↔ ((vs.filter u).length : Int) ≤ k := by
  unfold amCnf Models
  by_cases hk : k < 0
  · rw [if_pos hk]
    refine ⟨fun h => ?_, fun h => by omega⟩
    obtain ⟨l, hl, _⟩ := h [] (by simp)
    cases hl
  rw [if_neg hk]
  constructor
  · intro h
    apply Classical.byContradiction
    intro hlt
    obtain ⟨l, hl, hv⟩ := h (((vs.filter u).take (k.toNat + 1)).map fun v => 2 * v + 1) (List.mem_map_of_mem (List.mem_sublistsLen.2
      ⟨(List.take_sublist _ _).trans List.filter_sublist, by rw [List.length_take]; omega⟩))
    obtain ⟨v, hvm, rfl⟩ := List.mem_map.1 hl
    have := (List.mem_filter.1 (List.mem_of_mem_take hvm)).2
    rw [lv_negv, this] at hv
    cases hv
  · intro h c hc
    obtain ⟨t, ht, rfl⟩ := List.mem_map.1 hc
    obtain ⟨h1, h2⟩ := List.mem_sublistsLen.1 ht
    apply Classical.byContradiction
    intro hn
    have hall : ∀ v ∈ t, u v = true := by
      intro v hv
      cases hu : u v with
      | true => rfl
      | false => exact absurd ⟨2 * v + 1, List.mem_map_of_mem hv, by rw [lv_negv, hu]; rfl⟩ hn
    have h3 := (h1.filter u).length_le
    rw [List.filter_eq_self.2 hall] at h3
    omega

theorem models_append' {Γ Δ : List (List Nat)} {u : Nat → Bool} : Models Γ u ∧ Models Δ u ↔ Models (Γ ++ Δ) u := by
  unfold Models
  simp only [List.mem_append]
  constructor
  · rintro ⟨h1, h2⟩ x (hx | hx)
    · exact h1 x hx
    · exact h2 x hx
  · exact fun h => ⟨fun x hx => h x (Or.inl hx), fun x hx => h x (Or.inr hx)⟩

/-- the at-most clauses stay as they are -/
theorem newVar_ams (s : S) : (newVar s).ams = s.ams := rfl

theorem addClause_ams {Φ : (Nat → Bool) → Prop} {fuel : Nat} {s s' : S} {ps : List Nat} {b : Bool} (h : RS Φ s) (hr : ∀ l ∈ ps, l / 2 < s.nVars) (he : addClause fuel s ps = some (s', b)) :
    s'.ams = s.ams := by
  unfold addClause at he
  by_cases hok : s.ok = false
  · rw [if_pos hok] at he; cases he; rfl
  rw [if_neg hok] at he
  have hok : s.ok = true := by simpa using hok
  obtain ⟨r1, r2, r3, r4⟩ := h.run hok
  have hperm : (ps.insertionSort (· ≤ ·)).Perm ps := List.perm_insertionSort _ _
  have hal := addLoop_spec (s := s) (ps := ps) (ps.insertionSort (· ≤ ·)) none [] (fun q hq => hperm.mem_iff.1 hq) (by simp) (List.pairwise_insertionSort _ _)
    (by simp) (by simp) (by simp) (Or.inl ⟨rfl, rfl⟩)
  cases hl : addLoop s (ps.insertionSort (· ≤ ·)) none [] with
  | none => rw [hl] at he; cases he; rfl
  | some out =>
    rw [hl] at he hal
    obtain ⟨hnd, hout, _, hcov⟩ := hal
    match out, he with
    | [], he => cases he; rfl
    | [l], he =>
      dsimp only at he
      obtain ⟨hlp, hlv⟩ := hout l (by simp)
      have hpe : PI (fun _ => False) TT (enqueue s l none) (fun _ _ => False) := by
        refine (r1.weaken fun u hu => hu.elim).enqueue (Or.inl hlv) (hr l hlp) (fun e => ?_) (fun _ u hu => hu.elim) trivial (fun _ e => by cases e)
        rw [h.dl0] at e; omega
      cases hp : propagate fuel (enqueue s l none) with
      | none => rw [hp] at he; cases he
      | some x =>
        obtain ⟨s1, r⟩ := x
        rw [hp] at he
        cases he
        obtain ⟨f, _⟩ := propagate_spec fuel _ s1 r hpe hp
        exact f.ams
    | a :: b' :: rest, he =>
      dsimp only at he
      injection he with he
      injection he with e1 e2
      subst e1
      obtain ⟨_, _, _, _, _, _, _, _, _, _, _, _, _, _, _, _, _, _, _, q20, _⟩ := attach_cls { s with clauses := s.clauses ++ [s.nextId] } ⟨a, b', rest, none⟩
      exact q20

/-- what an operation may answer -/
def AnsOk (w' : W) (a : A) : Op → Ans → Prop
  | .add c, .bool b => b = false → ∀ u, ¬ Models (a.cur ++ [c]) u
  | .solve _ asm, .verdict r => ∀ b, r = some b → Verdict (Models a.cur) asm w'.s b
  | .load k, .bool b => b = true ↔ k ∈ a.live
  | _, _ => True

theorem step_spec {m : Bool} {fuel : Nat} {w w' : W} {a : A} {o : Op} {r : Ans} (h : Inv m w a) (hc : o.Calm m) (he : w.step fuel o = some (w', r)) : Inv m w' (a.step o) ∧ AnsOk w' a o r := by
  cases o with
  | newVar =>
    cases he
    obtain ⟨h1, h2⟩ := newVar_spec h.rs
    exact ⟨inv_ext h h1 h2 fun _ => rfl, trivial⟩
  | add c =>
    unfold W.step at he
    dsimp only at he
    by_cases hr : ∀ l ∈ c, l / 2 < w.s.nVars
    · rw [if_pos hr] at he
      cases ha : addClause fuel w.s c with
      | none => rw [ha] at he; cases he
      | some x =>
        obtain ⟨s', b⟩ := x
        rw [ha] at he
        cases he
        obtain ⟨h1, h2, h3⟩ := addClause_spec h.rs hr ha
        have h1 := h1.congr fun u => models_append (Γ := a.cur) (c := c)
        refine ⟨inv_ext h h1 h2 fun _ => addClause_ams h.rs hr ha, fun hb u => h1.dead ?_ u⟩
        rw [h3]; exact hb
    · rw [if_neg hr] at he; cases he
  | solve q asm =>
    unfold W.step at he
    dsimp only at he
    by_cases hr : ∀ l ∈ asm, l / 2 < w.s.nVars
    · rw [if_pos hr] at he
      cases ha : Sat.solve q.cfg fuel q.O q.start q.finish asm w.s with
      | none => rw [ha] at he; cases he
      | some x =>
        obtain ⟨b, s'⟩ := x
        rw [ha] at he
        cases he
        have hcf : q.cfg = .basic → w.s.ams = [] := by
          intro e
          refine h.noam ?_
          cases m with
          | false => rfl
          | true => exact absurd e (hc.2 rfl)
        obtain ⟨h1, h2, h3⟩ := solve_spec hcf hc.1 hr h.rs ha
        exact ⟨inv_ext h h1 h2.ext fun _ => h2.ams, h3⟩
    · rw [if_neg hr] at he; cases he
  | atMost vs k =>
    unfold W.step at he
    dsimp only at he
    by_cases hr : ∀ v ∈ vs, v < w.s.nVars
    · rw [if_pos hr] at he
      cases ha : addAtMost fuel w.s (vs.map (2 * ·)) k with
      | none => rw [ha] at he; cases he
      | some s' =>
        rw [ha] at he
        cases he
        obtain ⟨h1, h2, _⟩ := addAtMost_spec h.rs (hc.2.map (fun a b e => by omega)) (fun l hl => by
            obtain ⟨v, _, rfl⟩ := List.mem_map.1 hl
            omega) (fun l hl => by
            obtain ⟨v, hv, rfl⟩ := List.mem_map.1 hl
            have := hr v hv
            omega) ha
        have h1 := h1.congr fun u => (show _ ↔ Models (a.cur ++ amCnf vs k) u by rw [← models_append', models_amCnf, count_pos])
        exact ⟨inv_ext h h1 h2 fun e => (by rw [hc.1] at e; cases e), trivial⟩
    · rw [if_neg hr] at he; cases he
  | save =>
    cases he
    obtain ⟨h1, h2⟩ := save_spec h.rs
    have hsid : (saveState w.s).2.id = w.handles.length := h.sid
    have hlive : ∀ k ∈ a.live, k < w.handles.length := by
      intro k hk
      obtain ⟨st, _, e, _⟩ := h.kept k hk
      exact (List.getElem?_eq_some_iff.1 e).1
    refine ⟨⟨h1, ?_, ?_, ?_, ?_, ?_, ?_, h.noam⟩, trivial⟩
    · show w.s.valid ++ [w.s.stateId] = a.live ++ [a.snaps.length]
      rw [h.valid, h.sid, h.len]
    · show w.s.stateId + 1 = (w.handles ++ [_]).length
      rw [h.sid]; simp
    · show (a.snaps ++ [_]).length = (w.handles ++ [_]).length
      simp [h.len]
    · intro k st hk
      have hk : (w.handles ++ [(saveState w.s).2])[k]? = some st := hk
      rcases Nat.lt_trichotomy k w.handles.length with hlt | heq | hgt
      · rw [List.getElem?_append_left hlt] at hk
        exact h.ids k st hk
      · subst heq
        rw [List.getElem?_append_right (Nat.le_refl _), Nat.sub_self] at hk
        cases hk
        exact hsid
      · rw [List.getElem?_eq_none (by simp; omega)] at hk; cases hk
    · intro k hk
      have hk : k ∈ a.live ++ [a.snaps.length] := hk
      show ∃ st Γ, (w.handles ++ [(saveState w.s).2])[k]? = some st ∧ (a.snaps ++ [a.cur])[k]? = some Γ ∧ Kept (saveState w.s).1 st (Models Γ)
      rcases List.mem_append.1 hk with hk | hk
      · obtain ⟨st, Γ, e1, e2, e3⟩ := h.kept k hk
        refine ⟨st, Γ, ?_, ?_, e3.save⟩
        · rw [List.getElem?_append_left (hlive k hk)]; exact e1
        · rw [List.getElem?_append_left (by rw [h.len]; exact hlive k hk)]; exact e2
      · rw [List.mem_singleton.1 hk]
        refine ⟨(saveState w.s).2, a.cur, ?_, ?_, h2⟩
        · rw [h.len]; simp
        · simp
    · show (a.live ++ [a.snaps.length]).Pairwise fun k k' => ∀ st st', (w.handles ++ [(saveState w.s).2])[k]? = some st → (w.handles ++ [(saveState w.s).2])[k']? = some st' → Before st st'
      rw [List.pairwise_append]
      refine ⟨h.ord.imp_of_mem fun {k k'} hk hk' hb st st' e e' => ?_, List.pairwise_singleton _ _, fun k hk k' hk' st st' e e' => ?_⟩
      · rw [List.getElem?_append_left (hlive k hk)] at e
        rw [List.getElem?_append_left (hlive k' hk')] at e'
        exact hb st st' e e'
      · rw [List.mem_singleton.1 hk', h.len] at e'
        rw [List.getElem?_append_left (hlive k hk)] at e
        rw [List.getElem?_append_right (Nat.le_refl _), Nat.sub_self] at e'
        cases e'
        obtain ⟨st0, Γ, f1, f2, f3⟩ := h.kept k hk
        rw [e] at f1
        cases f1
        exact ⟨f3.idlt, f3.nv, f3.nc, f3.nu, f3.na⟩
  | load k =>
    unfold W.step at he
    dsimp only at he
    cases hh : w.handles[k]? with
    | none => rw [hh] at he; cases he
    | some st =>
      rw [hh] at he
      dsimp only at he
      cases hl : loadState fuel w.s st with
      | none => rw [hl] at he; cases he
      | some x =>
        obtain ⟨s', b⟩ := x
        rw [hl] at he
        cases he
        have hid := h.ids k st hh
        by_cases hk : k ∈ a.live
        · obtain ⟨i, hi⟩ := findIdx_mem.2 hk
          have hi' : w.s.valid.findIdx? (· == st.id) = some i := by rw [h.valid, hid]; exact hi
          obtain ⟨st', Γ, e1, e2, e3⟩ := h.kept k hk
          rw [hh] at e1
          cases e1
          obtain ⟨l1, l2, l3, l4, l5, l6, l7, l8⟩ := load_spec h.rs e3 hi' hl
          have hstep : a.step (.load k) = { a with cur := Γ, live := a.live.takeWhile (· ≠ k) ++ [k] } := by
            unfold A.step
            dsimp only
            rw [if_pos hk, e2]; rfl
          rw [hstep]
          refine ⟨⟨l2, ?_, ?_, h.len, h.ids, ?_, ?_, fun e => by rw [l8, h.noam e]; exact List.take_nil⟩, ?_⟩
          · rw [l5, h.valid]; exact take_findIdx hi
          · rw [l4]; exact h.sid
          · intro j hj
            rcases List.mem_append.1 hj with hj | hj
            · have hjl := (List.takeWhile_sublist _).subset hj
              obtain ⟨sj, Γj, f1, f2, f3⟩ := h.kept j hjl
              refine ⟨sj, Γj, f1, f2, l7 sj _ ?_ f3⟩
              have hpre : a.live.takeWhile (· ≠ k) ++ [k] <+: a.live := by rw [← take_findIdx hi]; exact List.take_prefix _ _
              have := (h.ord.sublist hpre.sublist)
              rw [List.pairwise_append] at this
              exact this.2.2 j hj k (by simp) sj st f1 hh
            · rw [List.mem_singleton.1 hj]
              exact ⟨st, Γ, hh, e2, l6⟩
          · have hpre : a.live.takeWhile (· ≠ k) ++ [k] <+: a.live := by rw [← take_findIdx hi]; exact List.take_prefix _ _
            exact h.ord.sublist hpre.sublist
          · exact ⟨fun _ => hk, fun _ => l1⟩
        · have hn : w.s.valid.findIdx? (· == st.id) = none := by
            cases hf : w.s.valid.findIdx? (· == st.id) with
            | none => rfl
            | some i =>
              rw [h.valid, hid] at hf
              exact absurd (findIdx_mem.1 ⟨i, hf⟩) hk
          unfold loadState at hl
          rw [hn] at hl
          cases hl
          have hstep : a.step (.load k) = a := by
            unfold A.step
            dsimp only
            rw [if_neg hk]
          rw [hstep]
          exact ⟨⟨h.rs, h.valid, h.sid, h.len, h.ids, h.kept, h.ord, h.noam⟩, fun e => (by cases e), fun e => absurd e hk⟩

theorem run_spec {m : Bool} {fuel : Nat} : ∀ {ops : List Op} {w w' : W} {a : A}, Inv m w a → (∀ o ∈ ops, o.Calm m) → w.run fuel ops = some w' → Inv m w' (ops.foldl A.step a)
  | [], w, w', a, h, _, he => by cases he; exact h
  | o :: os, w, w', a, h, hc, he => by
    unfold W.run at he
    cases hs : w.step fuel o with
    | none => rw [hs] at he; cases he
    | some x =>
      obtain ⟨w1, r⟩ := x
      rw [hs] at he
      exact run_spec (ops := os) (step_spec h (hc o List.mem_cons_self) hs).1 (fun o' ho => hc o' (List.mem_cons_of_mem _ ho)) he

/-! ## C17 -/

/-- C17: after any history of operations the clauses, unit clauses and at-most clauses that the solver stores have exactly the models of the clauses and constraints added
to it, and the solver is marked as contradictory only if there is no model. -/
theorem C17 {m : Bool} {fuel : Nat} {ops : List Op} {w : W} (hc : ∀ o ∈ ops, o.Calm m) (h : W.run fuel {} ops = some w) :
    (w.s.ok = true → ∀ u, (∀ c ∈ w.s.clauses, Sat u (w.s.cls c).lits) ∧ (∀ l ∈ w.s.units, lv u l = true) ∧
      (∀ c ∈ w.s.ams, ∀ k, w.s.am c = some k → (k.lits.filter (lv u)).length ≤ k.card) ↔ Models (A.run ops).cur u) ∧
    (w.s.ok = false → ∀ u, ¬ Models (A.run ops).cur u) := by
  have hi := run_spec inv_init hc h
  exact ⟨fun hok u => hi.rs.holds_iff hok u, hi.rs.dead⟩

/-- C17: the learnt clauses and the literals assigned between calls follow from the clauses added -/
theorem C17_learnt {m : Bool} {fuel : Nat} {ops : List Op} {w : W} (hc : ∀ o ∈ ops, o.Calm m) (h : W.run fuel {} ops = some w) (u : Nat → Bool) (hu : Models (A.run ops).cur u) :
    (∀ c ∈ w.s.learnts, Sat u (w.s.cls c).lits) ∧ ∀ l, w.s.value l = some true → lv u l = true := by
  have hi := run_spec inv_init hc h
  obtain ⟨ex, hp⟩ := hi.rs.pi
  refine ⟨fun c hcl => hp.m.db c (List.mem_append_right _ hcl) u hu, fun l hl => ?_⟩
  have hm := (hp.t.tval l).1 hl
  exact hp.m.imp0 l hm (hi.rs.lev hm) u hu

/-! ## C18 -/

/-- C18: the verdict of a call after any history.  SAT: the model has a value for each variable, and it satisfies all clauses and assumptions.  UNSAT: no assignment
satisfies all clauses and assumptions. -/
theorem C18_partial {m : Bool} {fuel : Nat} {ops : List Op} {w : W} (hc : ∀ o ∈ ops, o.Calm m) (h : W.run fuel {} ops = some w) {r : Run} {asm : List Nat} (hr : r.Calm m)
    {w' : W} {b : Bool} (hs : w.step fuel (.solve r asm) = some (w', .verdict (some b))) :
    if b then w'.s.model.length = w'.s.nVars ∧ ∀ u : Nat → Bool, (∀ v < w'.s.nVars, w'.s.model[v]? = some (u v)) → Models (A.run ops).cur u ∧ ∀ p ∈ asm, lv u p = true
    else ∀ u, Models (A.run ops).cur u → ∃ p ∈ asm, lv u p = false := by
  have hi := run_spec inv_init hc h
  have := (step_spec (o := .solve r asm) hi hr hs).2 b rfl
  cases b with
  | true => exact this
  | false =>
    intro u hu
    obtain ⟨h1, h2⟩ := this
    obtain ⟨x, hx, hv⟩ := h2 u hu
    exact ⟨neg x, h1 x hx, by rw [lv_neg, hv]; rfl⟩

/-- C18: the verdict is SAT just if the clauses and assumptions have a model -/
theorem C18_iff_partial {m : Bool} {fuel : Nat} {ops : List Op} {w : W} (hc : ∀ o ∈ ops, o.Calm m) (h : W.run fuel {} ops = some w) {r : Run} {asm : List Nat} (hr : r.Calm m)
    {w' : W} {b : Bool} (hs : w.step fuel (.solve r asm) = some (w', .verdict (some b))) : b = true ↔ ∃ u, Models (A.run ops).cur u ∧ ∀ p ∈ asm, lv u p = true := by
  have := C18_partial hc h hr hs
  cases b with
  | true =>
    rw [if_pos rfl] at this
    obtain ⟨hl, hm⟩ := this
    refine ⟨fun _ => ⟨fun v => w'.s.model[v]?.getD false, hm _ fun v hv => ?_⟩, fun _ => rfl⟩
    rw [List.getElem?_eq_getElem (by rw [hl]; exact hv)]; rfl
  | false =>
    rw [if_neg (by simp)] at this
    refine ⟨fun e => (by cases e), fun ⟨u, hu, ha⟩ => ?_⟩
    obtain ⟨p, hp, hv⟩ := this u hu
    rw [ha p hp] at hv; cases hv

/-! ## C19 -/

/-- C19: after an UNSAT answer the conflict consists of negations of passed assumptions, and these assumptions contradict the clauses; if it is empty, the clauses
have no model at all. -/
theorem C19_partial {m : Bool} {fuel : Nat} {ops : List Op} {w : W} (hc : ∀ o ∈ ops, o.Calm m) (h : W.run fuel {} ops = some w) {r : Run} {asm : List Nat} (hr : r.Calm m)
    {w' : W} (hs : w.step fuel (.solve r asm) = some (w', .verdict (some false))) :
    (∀ x ∈ w'.s.conflict, neg x ∈ asm) ∧ ∀ u, Models (A.run ops).cur u → ¬ ∀ x ∈ w'.s.conflict, lv u (neg x) = true := by
  have hi := run_spec inv_init hc h
  obtain ⟨h1, h2⟩ := (step_spec (o := .solve r asm) hi hr hs).2 false rfl
  refine ⟨h1, fun u hu ha => ?_⟩
  obtain ⟨x, hx, hv⟩ := h2 u hu
  have := ha x hx
  rw [lv_neg, hv] at this; cases this

/-! ## C20 -/

/-- C20: after a save, any operations and a load of that state that is not rejected, the clauses are those of the time of the save -/
theorem C20_clauses_partial (pre mid : List Op) (hl : (A.run pre).snaps.length ∈ (A.run (pre ++ .save :: mid)).live) :
    (A.run (pre ++ .save :: mid ++ [.load (A.run pre).snaps.length])).cur = (A.run pre).cur := by
  have hsn : ∀ (os : List Op) (a : A), a.snaps <+: (os.foldl A.step a).snaps := by
    intro os
    induction os with
    | nil => intro a; exact List.prefix_refl _
    | cons o os ih =>
      intro a
      refine List.IsPrefix.trans ?_ (ih _)
      cases o with
      | save => exact List.prefix_append _ _
      | load k => unfold A.step; dsimp only; split <;> exact List.prefix_refl _
      | _ => exact List.prefix_refl _
  have hmid := hsn mid ((A.run pre).step .save)
  have hrun : A.run (pre ++ .save :: mid) = mid.foldl A.step ((A.run pre).step .save) := by
    unfold A.run; rw [List.foldl_append, List.foldl_cons]
  have : A.run (pre ++ .save :: mid ++ [.load (A.run pre).snaps.length]) = (A.run (pre ++ .save :: mid)).step (.load (A.run pre).snaps.length) := by
    unfold A.run; rw [List.foldl_append]; rfl
  rw [this]
  unfold A.step
  dsimp only
  rw [if_pos hl]
  dsimp only
  rw [hrun]
  obtain ⟨t, ht⟩ := hmid
  rw [← ht]
  show (((A.run pre).snaps ++ [(A.run pre).cur] ++ t)[(A.run pre).snaps.length]?).getD [] = _
  rw [List.append_assoc, List.getElem?_append_right (Nat.le_refl _), Nat.sub_self]
  rfl

/-- C20: two histories with the same clauses get the same verdict on the same assumptions, whatever was added, learnt, saved and loaded in between -/
theorem C20_same_partial {m m' : Bool} {fuel fuel' : Nat} {ops ops' : List Op} {w w' : W} (hc : ∀ o ∈ ops, o.Calm m) (hc' : ∀ o ∈ ops', o.Calm m') (h : W.run fuel {} ops = some w)
    (h' : W.run fuel' {} ops' = some w') (he : (A.run ops).cur = (A.run ops').cur) {r r' : Run} {asm : List Nat} (hr : r.Calm m)
    (hr' : r'.Calm m') {v v' : W} {b b' : Bool} (hs : w.step fuel (.solve r asm) = some (v, .verdict (some b)))
    (hs' : w'.step fuel' (.solve r' asm) = some (v', .verdict (some b'))) : b = b' := by
  have h1 := C18_iff_partial hc h hr hs
  have h2 := C18_iff_partial hc' h' hr' hs'
  rw [he, ← h2] at h1
  cases b <;> cases b' <;> simp_all

/-- C20: a solver that saves its state, does anything and loads the state again answers like a solver that did just the operations before the save -/
theorem C20_partial {m : Bool} {fuel fuel' : Nat} {pre mid : List Op} {w w' : W} (hc : ∀ o ∈ pre ++ .save :: mid, o.Calm m) (hl : (A.run pre).snaps.length ∈ (A.run (pre ++ .save :: mid)).live)
    (h : W.run fuel {} (pre ++ .save :: mid ++ [.load (A.run pre).snaps.length]) = some w) (h' : W.run fuel' {} pre = some w') {r r' : Run} {asm : List Nat}
    (hr : r.Calm m) (hr' : r'.Calm m) {v v' : W} {b b' : Bool} (hs : w.step fuel (.solve r asm) = some (v, .verdict (some b)))
    (hs' : w'.step fuel' (.solve r' asm) = some (v', .verdict (some b'))) : b = b' := by
  refine C20_same_partial (fun o ho => ?_) (fun o ho => hc o (List.mem_append_left _ ho)) h h' (C20_clauses_partial pre mid hl) hr hr' hs hs'
  rcases List.mem_append.1 ho with ho | ho
  · exact hc o ho
  · rw [List.mem_singleton.1 ho]; trivial

/-- C20: loading succeeds just for the states that are still valid; an invalid state changes nothing -/
theorem C20_error_partial {m : Bool} {fuel : Nat} {ops : List Op} {w w' : W} (hc : ∀ o ∈ ops, o.Calm m) (h : W.run fuel {} ops = some w) {k : Nat} {b : Bool}
    (hs : w.step fuel (.load k) = some (w', .bool b)) : (b = true ↔ k ∈ (A.run ops).live) ∧ (b = false → w' = w) := by
  have hi := run_spec inv_init hc h
  have := (step_spec (o := .load k) hi trivial hs).2
  refine ⟨this, fun hb => ?_⟩
  have hk : k ∉ (A.run ops).live := fun e => by rw [this.2 e] at hb; cases hb
  unfold W.step at hs
  dsimp only at hs
  cases hh : w.handles[k]? with
  | none => rw [hh] at hs; cases hs
  | some st =>
    rw [hh] at hs
    have hn : w.s.valid.findIdx? (· == st.id) = none := by
      cases hf : w.s.valid.findIdx? (· == st.id) with
      | none => rfl
      | some i =>
        rw [hi.valid, hi.ids k st hh] at hf
        exact absurd (findIdx_mem.1 ⟨i, hf⟩) hk
    have hload : loadState fuel w.s st = some (w.s, false) := by unfold loadState; rw [hn]
    dsimp only at hs
    rw [hload] at hs
    cases hs
    rfl

/-! ## C21 -/

/-- C21: if the handler cancels at the start or at the end of calls only, then later answers are right: `C17` – `C20` hold for histories with such calls, and the
cancelled call itself reports no verdict. -/
theorem C21_partial {fuel : Nat} {w w' : W} {r : Run} {asm : List Nat} {v : Option Bool} (h : r.start = false ∨ r.finish = false) (hok : w.s.ok = true)
    (hs : w.step fuel (.solve r asm) = some (w', .verdict v)) : v = none := by
  unfold W.step at hs
  dsimp only at hs
  by_cases hr : ∀ l ∈ asm, l / 2 < w.s.nVars
  · rw [if_pos hr] at hs
    unfold solve at hs
    by_cases hst : r.start = false
    · rw [if_pos hst] at hs; cases hs; rfl
    · rw [if_neg hst] at hs
      dsimp only at hs
      rw [if_neg (by rw [hok]; simp)] at hs
      cases hsl : searchLoop r.cfg fuel r.O asm fuel 0 { w.s with model := [], conflict := [] } with
      | none => rw [hsl] at hs; cases hs
      | some x =>
        rw [hsl] at hs
        dsimp only at hs
        have hf : r.finish = false := by
          rcases h with h | h
          · exact absurd h hst
          · exact h
        rw [hf] at hs
        simp at hs
        exact hs.2.symm
  · rw [if_neg hr] at hs; cases hs

/-! ## concrete runs -/

section Examples

/-- no cancellation, no restart, no reduction; variables in the order of the heap, negative first -/
def calm : Choice := ⟨true, false, false, fun _ => false, false, ⟨id, fun _ => .refl _⟩, ⟨id, fun _ => .refl _⟩, true⟩
/-- as `calm`, with a restart -/
def restarting : Choice := { calm with restart := true }
/-- the handler cancels at a conflict -/
def cancelling : Choice := { calm with resume := false }

def calmRun : Run := { cfg := .deep, O := fun n => if n = 4 then restarting else calm }

/-- the verdict of a call after a history -/
def verdictAfter (fuel : Nat) (ops : List Op) (r : Run) (asm : List Nat) : Option (Option Bool) :=
  match W.run fuel {} ops with
  | none => none
  | some w => match w.step fuel (.solve r asm) with
    | some (_, .verdict v) => some v
    | _ => none

/-- four variables; six clauses with a model; one of them with a literal twice -/
def ops1 : List Op := [.newVar, .newVar, .newVar, .newVar, .add [0, 2, 0], .add [1, 4], .add [3, 4], .add [5, 6, 0], .add [5, 7, 2], .add [1, 3]]

example : (∀ o ∈ ops1, o.Calm false) := by simp [ops1, Op.Calm]
example : calmRun.Calm true := ⟨fun n => by unfold calmRun; dsimp only; split <;> rfl, fun _ e => by cases e⟩
/-- `C17`, `C18`: SAT, and UNSAT under the assumption `¬x₂` -/
example : verdictAfter 60 ops1 calmRun [] = some (some true) := by decide +kernel
example : verdictAfter 60 ops1 calmRun [5, 6] = some (some false) := by decide +kernel
/-- `C19`: the conflict holds just one of the two assumptions -/
example : (match W.run 60 {} ops1 with
    | none => none
    | some w => (w.step 60 (.solve calmRun [6, 5])).map fun x => x.1.s.conflict) = some [4] := by decide +kernel
/-- `C20`: clauses added after the save make the solver contradictory; after loading the verdict is SAT again -/
def ops2 : List Op := ops1 ++ .save :: [.newVar, .add [8, 5], .solve calmRun [], .add [9], .add [5, 8], .solve calmRun []]
example : verdictAfter 60 ops2 calmRun [] = some (some false) := by decide +kernel
example : verdictAfter 60 (ops2 ++ [.load 0]) calmRun [] = some (some true) := by decide +kernel
example : (A.run ops1).snaps.length ∈ (A.run ops2).live := by decide +kernel
/-- `C20_error`: the inner state has become invalid -/
example : (match W.run 60 {} (ops1 ++ [.save, .save, .load 0]) with
    | none => none
    | some w => (w.step 60 (.load 1)).map fun x => match x.2 with | .bool b => b | _ => true) = some false := by decide +kernel

/-! ### cancellation at a conflict -/

/-- the four clauses over two variables: no model -/
def ops4 : List Op := [.newVar, .newVar, .add [0, 2], .add [0, 3], .add [1, 2], .add [1, 3]]

theorem ops4_unsat (u : Nat → Bool) : ¬ Models (A.run ops4).cur u := by
  intro h
  have h1 := h [0, 2] (by simp [A.run, ops4, A.step])
  have h2 := h [0, 3] (by simp [A.run, ops4, A.step])
  have h3 := h [1, 2] (by simp [A.run, ops4, A.step])
  have h4 := h [1, 3] (by simp [A.run, ops4, A.step])
  simp [Sat, lv] at h1 h2 h3 h4
  cases h0 : u 0 <;> cases h5 : u 1 <;> simp [h0, h5] at h1 h2 h3 h4

/-- C21 is false: a handler that cancels at the second conflict and from then on; the call reports the cancellation, but the next call, without any handler, answers
SAT for clauses without a model (`search` returns `TristateUndef`, `Solve` drops the handler state and goes on with the conflict lost). -/
theorem C21_false : ∃ r : Run, r.finish = false ∧ (∀ u, ¬ Models (A.run (ops4 ++ [.solve r []])).cur u) ∧
    verdictAfter 60 ops4 r [] = some none ∧ verdictAfter 60 (ops4 ++ [.solve r []]) calmRun [] = some (some true) := by
  refine ⟨{ cfg := .deep, O := fun n => if n ≤ 1 then calm else cancelling, finish := false }, rfl, ?_, ?_, ?_⟩
  · exact fun u h => ops4_unsat u h
  · decide +kernel
  · decide +kernel

/-- without the cancellation the verdict is right -/
example : verdictAfter 60 ops4 calmRun [] = some (some false) := by decide +kernel
/-- `C21_partial`: a cancelled call at the end does no harm -/
example : verdictAfter 60 (ops4 ++ [.solve { calmRun with finish := false } []]) calmRun [] = some (some false) := by decide +kernel

/-! ### at-most clauses -/

/-- five variables; at most one of the first three is true, and one of them is true by two clauses -/
def amOps : List Op := [.newVar, .newVar, .newVar, .newVar, .newVar, .atMost [0, 1, 2] 1, .add [2, 4, 7, 8], .add [2, 4, 7, 9]]

example : ∀ o ∈ amOps, o.Calm true := by simp [amOps, Op.Calm]
/-- `C18` with an at-most clause -/
example : verdictAfter 60 amOps calmRun [0, 6] = some (some false) := by decide +kernel
example : verdictAfter 60 (amOps ++ [.solve calmRun [0, 6]]) calmRun [6] = some (some true) := by decide +kernel
/-- `C20` with an at-most clause added after the save -/
example : verdictAfter 60 (amOps ++ [.save, .atMost [3, 1, 0, 4] 2, .add [0, 2], .add [6], .add [8]]) calmRun [3] = some (some false) := by decide +kernel
example : verdictAfter 60 (amOps ++ [.save, .atMost [3, 1, 0, 4] 2, .add [0, 2], .add [6], .add [8], .solve calmRun [3], .load 0]) calmRun [6, 8, 3, 4] = some (some true) := by decide +kernel

/-- C18 is false with at-most clauses and `ClauseMinBasic`: the call under the assumptions `x₀`, `x₃` learns the clause `¬x₃`, as the at-most clause is taken for a clause
with the literal `x₀`, whose level is not 0 but which is not looked at.  The next call under the assumption `x₃` answers UNSAT, although all clauses, the constraint and the
assumption have a model. -/
theorem C18_atMost_false : ∃ r : Run, (∀ n, (r.O n).resume = true) ∧ r.cfg = .basic ∧ r.start = true ∧ r.finish = true ∧
    verdictAfter 60 amOps r [0, 6] = some (some false) ∧ verdictAfter 60 (amOps ++ [.solve r [0, 6]]) r [6] = some (some false) ∧
    ∃ u, Models (A.run (amOps ++ [.solve r [0, 6]])).cur u ∧ lv u 6 = true := by
  refine ⟨{ cfg := .basic, O := fun _ => calm }, fun _ => rfl, rfl, rfl, rfl, by decide +kernel, by decide +kernel, fun v => v == 1 || v == 3, ?_, by decide⟩
  show Models (A.run amOps).cur _
  have : (A.run amOps).cur = amCnf [0, 1, 2] 1 ++ [[2, 4, 7, 8], [2, 4, 7, 9]] := rfl
  rw [this, ← models_append', models_amCnf]
  refine ⟨by decide, fun c hc => ?_⟩
  rcases List.mem_cons.1 hc with rfl | hc
  · exact ⟨2, by decide, by decide⟩
  · rw [List.mem_singleton.1 hc]
    exact ⟨2, by decide, by decide⟩

end Examples

end Verif.Sat
