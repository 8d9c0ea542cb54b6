import Verif.Enum.ToBdd
/-!
# Success of an enumeration under a handler (C27, C62)

A handler that, once it has cancelled, cancels everything that follows (as the handlers of /repo/handler do: time-outs and counters): success means that the enumeration
ran to its end. With a handler that resumes after a cancellation it does not.
-/
namespace Verif.Enum
open Verif Verif.Tree
variable {α : Type} [DecidableEq α]

open Classical in
/-- the same configuration with a handler that never cancels: calls that were cancelled are answered by a correct solver -/
noncomputable def Cfg.all (g : Cfg α) : Cfg α :=
  { g with
    call := fun n fs => if g.go n then g.call n fs else if h : ∃ v, Sat v fs then some (some h.choose) else some none
    go := fun _ => true }

/-- A handler that stays cancelled: once an event was answered by a cancellation, so are all later ones, and a call of the solver is cancelled only if its handler
is (the handler of the solver is that of the enumeration, iteration.go:198). `Timeout` of /repo/handler/timeout.go:25-28 is one as long as the clock does not run backwards. -/
structure Cfg.Persistent (g : Cfg α) : Prop where
  mono : ∀ n m, n ≤ m → g.go m = true → g.go n = true
  call : ∀ n fs, g.call n fs = none → g.go n = false

theorem all_ok {g : Cfg α} (hok : g.Ok) : g.all.Ok := by
  classical
  refine ⟨fun n fs v h => ?_, fun n fs h => ?_⟩ <;> simp only [Cfg.all] at h <;> split at h
  · exact hok.1 n fs v h
  · split at h
    · rename_i hs; simp only [Option.some.injEq] at h; exact h ▸ hs.choose_spec
    · cases h
  · exact hok.2 n fs h
  · split at h
    · cases h
    · assumption

theorem all_total {g : Cfg α} (hp : g.Persistent) : g.all.Total := by
  classical
  refine ⟨fun n fs h => ?_, fun _ => rfl⟩
  simp only [Cfg.all] at h
  split at h
  · rename_i hg; rw [hp.call n fs h] at hg; cases hg
  · split at h <;> cases h

theorem iterLoop_lt (g : Cfg α) (kn rel all : List α) (max : Nat) : ∀ (F found : Nat) (fs : List (Fm α)) (c : Coll α) (n : Nat) {fin ok c' n'},
    iterLoop g kn rel all max F found fs c n = some (fin, ok, c', n') → n < n'
  | 0, _, _, _, _, _, _, _, _, h => by cases h
  | F + 1, found, fs, c, n, fin, ok, c', n', h => by
    unfold iterLoop at h
    split at h
    · split at h
      · simp only [Option.some.injEq, Prod.mk.injEq] at h; omega
      · split at h
        · split at h
          · simp only [Option.some.injEq, Prod.mk.injEq] at h; omega
          · have := iterLoop_lt g kn rel all max F _ _ _ _ h; omega
        · simp only [Option.some.injEq, Prod.mk.injEq] at h; omega
    · simp only [Option.some.injEq, Prod.mk.injEq] at h; omega

theorem iterLoop_all {g : Cfg α} (hp : g.Persistent) (kn rel all : List α) (max : Nat) : ∀ (F found : Nat) (fs : List (Fm α)) (c : Coll α) (n : Nat) {fin ok c' n'},
    iterLoop g kn rel all max F found fs c n = some (fin, ok, c', n') → (∀ m < n', g.go m = true) → iterLoop g.all kn rel all max F found fs c n = some (fin, ok, c', n')
  | 0, _, _, _, _, _, _, _, _, h, _ => by cases h
  | F + 1, found, fs, c, n, fin, ok, c', n', h, hall => by
    have hlt := iterLoop_lt g kn rel all max _ _ _ _ _ h
    have hgo := hall n hlt
    unfold iterLoop at h ⊢
    rw [show g.all.call n fs = g.call n fs from if_pos hgo]
    cases hc : g.call n fs with
    | none => rw [hp.call n fs hc] at hgo; cases hgo
    | some o =>
      rw [hc] at h
      cases o with
      | none => exact h
      | some v =>
        dsimp only at h ⊢
        split at h
        · rename_i hm
          rw [if_pos hm]
          exact h
        · rename_i hm
          rw [if_neg hm]
          rw [if_pos (show g.all.go (n + 1) = true from rfl)]
          split at h
          · split at h
            · rename_i hk
              rw [if_pos hk]
              exact h
            · rename_i hk
              rw [if_neg hk]
              exact iterLoop_all hp kn rel all max F _ _ _ _ h hall
          · rename_i hgo
            simp only [Option.some.injEq, Prod.mk.injEq] at h
            exact absurd (hall (n + 1) (by omega)) hgo

theorem iterate_run {g : Cfg α} (hp : g.Persistent) {F : Nat} {s : St α} {vars add : List α} {max : Nat} {c : Coll α} {n fin ok c' n'}
    (h : iterate g F s vars add max c n = some (fin, ok, c', n')) :
    n < n' ∧ ((∀ m < n', g.go m = true) → iterate g.all F s vars add max c n = some (fin, ok, c', n')) :=
  ⟨iterLoop_lt g _ _ _ _ _ _ _ _ _ h, iterLoop_all hp _ _ _ _ _ _ _ _ _ h⟩

theorem splitLoop_run {g : Cfg α} (hp : g.Persistent) (F : Nat) (s : St α) (d : Nat) : ∀ (k : Nat) (sv : List α) (c : Coll α) (n : Nat) {o c' n'},
    splitLoop g F s d k sv c n = some (o, c', n') →
    n < n' ∧ ((∀ m < n', g.go m = true) → splitLoop g.all F s d k sv c n = some (o, c', n'))
  | 0, _, _, _, _, _, _, h => by cases h
  | k + 1, sv, c, n, o, c', n', h => by
    unfold splitLoop at h ⊢
    rw [show g.all.maxSplit d = g.maxSplit d from rfl]
    cases hi : iterate g F s sv [] (g.maxSplit d) c n with
    | none => rw [hi] at h; cases h
    | some r =>
      obtain ⟨fin, ok, c1, n1⟩ := r
      obtain ⟨h1, h2⟩ := iterate_run hp hi
      rw [hi] at h
      cases ok with
      | false =>
        have hn : n' = n1 + 1 := by simp only [Option.some.injEq, Prod.mk.injEq] at h; omega
        refine ⟨by omega, fun hall => ?_⟩
        rw [h2 fun m hm => hall m (by omega)]
        exact h
      | true =>
        cases fin with
        | true =>
          have hn : n' = n1 := by simp only [Option.some.injEq, Prod.mk.injEq] at h; omega
          refine ⟨by omega, fun hall => ?_⟩
          rw [h2 fun m hm => hall m (by omega)]
          exact h
        | false =>
          dsimp only at h
          split at h
          · obtain ⟨h3, h4⟩ := splitLoop_run hp F s d k _ _ _ h
            refine ⟨by omega, fun hall => ?_⟩
            rw [h2 fun m hm => hall m (by omega)]
            dsimp only
            rw [if_pos (show g.all.go n1 = true from rfl)]
            exact h4 hall
          · rename_i hgo
            have hn : n' = n1 + 1 := by simp only [Option.some.injEq, Prod.mk.injEq] at h; omega
            exact ⟨by omega, fun hall => absurd (hall n1 (by omega)) hgo⟩

theorem recLoop_run (g : Cfg α) {rec rec' : List (Lit α) → St α → Coll α → Nat → Option (Bool × St α × Coll α × Nat)}
    (hrec : ∀ a s c n ok s' c' n', rec a s c n = some (ok, s', c', n') → n < n' ∧ ((∀ m < n', g.go m = true) → rec' a s c n = some (ok, s', c', n')))
    (sm : List (Lit α)) : ∀ (as : List (List (Lit α))) (s : St α) (c : Coll α) (n : Nat) {ok s' c' n'}, recLoop g rec sm as s c n = some (ok, s', c', n') →
    n ≤ n' ∧ ((∀ m < n', g.go m = true) → recLoop g.all rec' sm as s c n = some (ok, s', c', n')) ∧ (ok = true → g.go (n - 1) = true → g.go (n' - 1) = true)
  | [], s, c, n, ok, s', c', n', h => by
    unfold recLoop at h ⊢
    have hn : n' = n := by simp only [Option.some.injEq, Prod.mk.injEq] at h; omega
    subst hn
    exact ⟨le_refl _, fun _ => h, fun _ h => h⟩
  | a :: as, s, c, n, ok, s', c', n', h => by
    unfold recLoop at h ⊢
    cases hr : rec (a ++ sm) s c n with
    | none => rw [hr] at h; cases h
    | some r =>
      obtain ⟨ok1, s1, c1, n1⟩ := r
      obtain ⟨h1, h2⟩ := hrec _ _ _ _ _ _ _ _ hr
      rw [hr] at h
      dsimp only at h
      split at h
      · rename_i hgo
        obtain ⟨h3, h4, h5⟩ := recLoop_run g hrec sm as _ _ _ h
        refine ⟨by omega, fun hall => ?_, fun ho _ => h5 ho hgo⟩
        rw [h2 fun m hm => hall m (by omega)]
        dsimp only
        rw [if_pos (show g.all.go n1 = true from rfl)]
        exact h4 hall
      · rename_i hgo
        simp only [Option.some.injEq, Prod.mk.injEq] at h
        obtain ⟨rfl, rfl, rfl, rfl⟩ := h
        exact ⟨by omega, fun hall => absurd (hall n1 (by omega)) hgo, fun h => by cases h⟩

theorem iterRec_run {g : Cfg α} (hp : g.Persistent) (F : Nat) (vars add : List α) : ∀ (k : Nat) (sm : List (Lit α)) (sv : List α) (d : Nat) (s : St α) (c : Coll α) (n : Nat) {ok s' c' n'},
    iterRec g F vars add k sm sv d s c n = some (ok, s', c', n') →
    n < n' ∧ ((∀ m < n', g.go m = true) → iterRec g.all F vars add k sm sv d s c n = some (ok, s', c', n')) ∧ (ok = true → g.go (n' - 1) = true)
  | 0, _, _, _, _, _, _, _, _, _, _, h => by cases h
  | k + 1, sm, sv, d, s, c, n, ok, s', c', n', h => by
    unfold iterRec at h ⊢
    dsimp only at h ⊢
    rw [show g.all.maxIter d = g.maxIter d from rfl]
    cases hi : iterate g F (s.add sm) vars add (g.maxIter d) c n with
    | none => rw [hi] at h; cases h
    | some r =>
      obtain ⟨fin, ok1, c1, n1⟩ := r
      obtain ⟨h1, h2⟩ := iterate_run hp hi
      rw [hi] at h
      cases ok1 with
      | false =>
        simp only [Option.some.injEq, Prod.mk.injEq] at h
        obtain ⟨rfl, rfl, rfl, rfl⟩ := h
        refine ⟨by omega, fun hall => ?_, fun h => by cases h⟩
        rw [h2 fun m hm => hall m (by omega)]
      | true =>
        cases fin with
        | true =>
          simp only [Option.some.injEq, Prod.mk.injEq] at h
          obtain ⟨rfl, rfl, rfl, rfl⟩ := h
          refine ⟨by omega, fun hall => ?_, fun h => by simpa using h⟩
          rw [h2 fun m hm => hall m (by omega)]
          simp only [Option.some.injEq, Prod.mk.injEq, and_true]
          exact (hall n1 (by omega)).symm
        | false =>
          dsimp only at h
          split at h
          · rename_i hgo
            cases hsp : splitLoop g F (s.add sm) d F sv c1.rollback (n1 + 1) with
            | none => rw [hsp] at h; cases h
            | some r =>
              obtain ⟨o, c2, n2⟩ := r
              obtain ⟨h3, h4⟩ := splitLoop_run hp F _ d F sv _ _ hsp
              rw [hsp] at h
              cases o with
              | none =>
                simp only [Option.some.injEq, Prod.mk.injEq] at h
                obtain ⟨rfl, rfl, rfl, rfl⟩ := h
                refine ⟨by omega, fun hall => ?_, fun h => by cases h⟩
                rw [h2 fun m hm => hall m (by omega)]
                dsimp only
                rw [if_pos (show g.all.go n1 = true from rfl), h4 hall]
              | some nsv =>
                dsimp only at h
                split at h
                · rename_i hgo2
                  cases hr : recLoop g (fun a s' c n => iterRec g F vars add k a (g.split ((vars.filter (· ∉ nsv)).filter (· ∉ sm.map (·.var))) (s.add sm) (d + 1)) (d + 1) s' c n)
                      sm c2.unc (s.add sm) c2.rollback (n2 + 1) with
                  | none => rw [hr] at h; cases h
                  | some r =>
                    obtain ⟨ok3, s3, c3, n3⟩ := r
                    rw [hr] at h
                    simp only [Option.some.injEq, Prod.mk.injEq] at h
                    obtain ⟨rfl, rfl, rfl, rfl⟩ := h
                    obtain ⟨h5, h6, h7⟩ := recLoop_run g (rec' := fun a s' c n => iterRec g.all F vars add k a (g.split ((vars.filter (· ∉ nsv)).filter (· ∉ sm.map (·.var))) (s.add sm) (d + 1)) (d + 1) s' c n)
                      (fun a s' c n ok s'' c' n' hr => by
                        obtain ⟨i1, i2, -⟩ := iterRec_run hp F vars add k _ _ _ _ _ _ hr
                        exact ⟨i1, i2⟩) sm _ _ _ _ hr
                    refine ⟨by omega, fun hall => ?_, fun ho => h7 ho hgo2⟩
                    rw [h2 fun m hm => hall m (by omega)]
                    dsimp only
                    rw [if_pos (show g.all.go n1 = true from rfl), h4 fun m hm => hall m (by omega)]
                    dsimp only
                    rw [if_pos (show g.all.go n2 = true from rfl)]
                    rw [show g.all.split = g.split from rfl, h6 hall]
                · rename_i hgo2
                  simp only [Option.some.injEq, Prod.mk.injEq] at h
                  obtain ⟨rfl, rfl, rfl, rfl⟩ := h
                  exact ⟨by omega, fun hall => absurd (hall n2 (by omega)) hgo2, fun h => by cases h⟩
          · rename_i hgo
            simp only [Option.some.injEq, Prod.mk.injEq] at h
            obtain ⟨rfl, rfl, rfl, rfl⟩ := h
            exact ⟨by omega, fun hall => absurd (hall n1 (by omega)) hgo, fun h => by cases h⟩

/-- a successful iteration with a persistent handler is an iteration without handler -/
theorem iterRec_success {g : Cfg α} (hp : g.Persistent) {F : Nat} {vars add : List α} {k : Nat} {sm : List (Lit α)} {sv : List α} {d : Nat} {s : St α} {c : Coll α} {n : Nat} {s' c' n'}
    (h : iterRec g F vars add k sm sv d s c n = some (true, s', c', n')) : iterRec g.all F vars add k sm sv d s c n = some (true, s', c', n') := by
  obtain ⟨-, h2, h3⟩ := iterRec_run hp F vars add k sm sv d s c n h
  exact h2 fun m hm => hp.mono m (n' - 1) (by omega) (h3 rfl)

theorem run_success {g : Cfg α} (hp : g.Persistent) {F k : Nat} {V A : List α} {s : St α} {L cnt} (h : run g F k V A s = some (true, L, cnt)) :
    run g.all F k V A s = some (true, L, cnt) := by
  unfold run at h ⊢
  split at h
  · rw [if_pos (show g.all.go 0 = true from rfl), show g.all.split = g.split from rfl]
    cases hr : iterRec g F V A k [] (g.split V s 0) 0 s (newColl (V.filter (· ∉ s.kn)) (A.filter (· ∉ s.kn))) 1 with
    | none => rw [hr] at h; cases h
    | some r =>
      obtain ⟨ok, s', c', n'⟩ := r
      rw [hr] at h
      simp only [Option.some.injEq, Prod.mk.injEq] at h
      obtain ⟨rfl, rfl, rfl⟩ := h
      rw [iterRec_success hp hr]
  · cases h

open Classical in
/-- **C27**: whatever a handler does that stays cancelled once it is: if success is reported, all models are there -/
theorem C27_success {g : Cfg α} (hok : g.Ok) (hw : g.Within) (hp : g.Persistent) {F k : Nat} {V A : List α} (hV : V.Nodup) {s : St α}
    (hfs : ∀ f ∈ s.fs, ∀ x ∈ f.vars, x ∈ s.kn) (hA : ∀ x ∈ A, x ∈ V → x ∈ s.kn) {L cnt} (h : run g F k V A s = some (true, L, cnt)) :
    (L.map fun M => V.filter fun x => (⟨x, true⟩ : Lit α) ∈ M).Perm (V.sublists'.filter fun S => ∃ u, Sat u s.fs ∧ ∀ x ∈ V, u x = asgOf S x) ∧
    cnt = count V fun w => ∃ u, Sat u s.fs ∧ ∀ x ∈ V, u x = w x :=
  (C27_enumeration (all_ok hok) hw (all_total hp) hV hfs hA (run_success hp h)).2

theorem toBdd_success {P : Bdd.Par} {sz : Nat → Nat} {g : Cfg α} (hp : g.Persistent) {F k : Nat} {V : List α} {s : St α} {r : Bdd.W α × Nat}
    (h : toBdd P sz g F k V s = some (true, r)) : toBdd P sz g.all F k V s = some (true, r) := by
  unfold toBdd at h ⊢
  split at h
  · rw [if_pos (show g.all.go 0 = true from rfl), show g.all.split = g.split from rfl]
    cases hr : iterRec g F V [] k [] (g.split V s 0) 0 s bddColl 1 with
    | none => rw [hr] at h; cases h
    | some q =>
      obtain ⟨ok, s', c', n'⟩ := q
      rw [hr] at h
      dsimp only at h
      cases hl : lastBdd P sz V c'.com with
      | none => rw [hl] at h; cases h
      | some w =>
        rw [hl] at h
        simp only [Option.map_some, Option.some.injEq, Prod.mk.injEq] at h
        obtain ⟨rfl, rfl⟩ := h
        rw [iterRec_success hp hr]
        dsimp only
        rw [hl]
        rfl
  · cases hl : lastBdd P sz ([] : List α) [] with
    | none => rw [hl] at h; cases h
    | some w => rw [hl] at h; simp at h

open Classical in
/-- **C62**: whatever a handler does that stays cancelled once it is: if success is reported, the BDD is exact -/
theorem C62_success {P : Bdd.Par} (hgr : ∀ s, s < P.grow s) {sz : Nat → Nat} (hsz : ∀ n, 2 ≤ sz n) {g : Cfg α} (hok : g.Ok) (hw : g.Within) (hp : g.Persistent)
    {F k : Nat} {V : List α} (hV : V.Nodup) {s : St α} (hfs : ∀ f ∈ s.fs, ∀ x ∈ f.vars, x ∈ s.kn) {w : Bdd.W α} {a : Nat}
    (h : toBdd P sz g F k V s = some (true, w, a)) (v : α → Bool) : Bdd.walk w v (V.length + 1) a = some (decide (∃ u, Sat u s.fs ∧ ∀ x ∈ V, u x = v x)) :=
  (C62_bdd hgr hsz (all_ok hok) hw (all_total hp) hV hfs (toBdd_success hp h)).2.1 v

/-- **C62**: an enumeration that is cancelled at its start is not successful -/
theorem C62_start {P : Bdd.Par} {sz : Nat → Nat} {g : Cfg α} (hg : g.go 0 = false) {F k : Nat} {V : List α} {s : St α} {ok : Bool} {r : Bdd.W α × Nat}
    (h : toBdd P sz g F k V s = some (ok, r)) : ok = false := by
  rw [toBdd, hg] at h
  cases hl : lastBdd P sz ([] : List α) [] with
  | none => rw [hl] at h; cases h
  | some w => rw [hl] at h; simp at h; exact h.1

/-! ## a handler that resumes -/

/-- a solver: all assignments of the variables in the formulas are tried -/
def bruteCall (fs : List (Fm Nat)) : Option (Nat → Bool) := ((fs.flatMap Fm.vars).dedup.sublists'.map asgOf).find? fun v => fs.all (Fm.eval v)

theorem bruteCall_ok (fs : List (Fm Nat)) : (∀ v, bruteCall fs = some v → Sat v fs) ∧ (bruteCall fs = none → ¬∃ v, Sat v fs) := by
  refine ⟨fun v h => ?_, fun h => ?_⟩
  · have := List.find?_some h
    simpa [Sat] using this
  · rintro ⟨v, hv⟩
    rw [bruteCall, List.find?_eq_none] at h
    refine h (asgOf ((fs.flatMap Fm.vars).dedup.filter v)) (List.mem_map_of_mem (List.mem_sublists'.mpr List.filter_sublist)) (List.all_eq_true.mpr fun f hf => ?_)
    rw [← hv f hf]
    refine Fm.eval_congr f fun x hx => ?_
    have : x ∈ (fs.flatMap Fm.vars).dedup := List.mem_dedup.mpr (List.mem_flatMap.mpr ⟨f, hf, hx⟩)
    rw [asgOf]
    cases hv : v x <;> simp [List.mem_filter, hv, this]

/-- variables 0 and 1, no formula; more than two models at depth 0 make the enumeration split on the variable 0; the handler cancels only the event `j` -/
def onceCfg (j : Nat) : Cfg Nat := ⟨fun _ fs => some (bruteCall fs), fun n => n != j, fun d => if d = 0 then 3 else 10, fun _ => 10, fun vs _ _ => vs.filter (· = 0), fun _ _ => []⟩

theorem onceCfg_ok (j : Nat) : (onceCfg j).Ok :=
  ⟨fun _ fs v h => (bruteCall_ok fs).1 v (by simpa [onceCfg] using h), fun _ fs h => (bruteCall_ok fs).2 (by simpa [onceCfg] using h)⟩

theorem onceCfg_within (j : Nat) : (onceCfg j).Within := ⟨fun _ _ _ _ h => (List.mem_filter.mp h).1, fun _ _ _ h => by cases h⟩

/-- C27 (negative): iteration.go:130 ignores the state of the recursion. A handler that cancels a single event within the recursion and resumes afterwards gets a
success with one of four models, although no call of the solver was cancelled; without this cancellation there are four. -/
theorem C27_once_false : ∃ (g : Cfg Nat) (s : St Nat), g.Ok ∧ g.Within ∧ (∀ n fs, g.call n fs ≠ none) ∧ (∀ n, n ≠ 14 → g.go n = true) ∧
    (run g 10 10 [0, 1] [] s).map (fun r => (r.1, r.2.2)) = some (true, 1) ∧
    (run { g with go := fun _ => true } 10 10 [0, 1] [] s).map (fun r => (r.1, r.2.2)) = some (true, 4) :=
  ⟨onceCfg 14, ⟨[0, 1], []⟩, onceCfg_ok 14, onceCfg_within 14, fun _ _ h => by simp [onceCfg] at h, fun n h => by simpa [onceCfg] using h, by decide +kernel, by decide +kernel⟩

/-! ## concrete cases -/

/-- a handler that is cancelled from the event `j` on, by the clock, also within calls of the solver -/
def lateCfg (j : Nat) : Cfg Nat := { onceCfg 0 with call := fun n fs => if n < j then some (bruteCall fs) else none, go := fun n => n < j }

/-- `C27_success`, `C62_success` -/
example (j : Nat) : (lateCfg j).Ok ∧ (lateCfg j).Within ∧ (lateCfg j).Persistent := by
  refine ⟨⟨fun n fs v h => ?_, fun n fs h => ?_⟩, onceCfg_within 0, ⟨fun n m h hm => ?_, fun n fs h => ?_⟩⟩
  · simp only [lateCfg] at h
    split at h
    · exact (bruteCall_ok fs).1 v (by simpa using h)
    · cases h
  · simp only [lateCfg] at h
    split at h
    · exact (bruteCall_ok fs).2 (by simpa using h)
    · cases h
  · simp only [lateCfg, decide_eq_true_eq] at hm ⊢; omega
  · simp only [lateCfg] at h ⊢
    split at h
    · cases h
    · simpa using ‹¬n < j›
/-- the enumeration succeeds if the clock is late enough, with all models, and does not if it is early -/
example : ([0, 1, 12, 14, 20, 26, 27, 40].map fun j => (run (lateCfg j) 10 10 [0, 1] [] ⟨[0, 1], []⟩).map fun r => (r.1, r.2.2)) =
    [some (false, 0), some (false, 0), some (false, 0), some (false, 1), some (false, 2), some (false, 4), some (true, 4), some (true, 4)] := by decide +kernel
/-- `C62_start` -/
example : (toBdd (Bdd.exPar 11) (fun _ => 13) (lateCfg 0) 10 10 [0, 1] ⟨[0, 1], []⟩).map (fun r => (r.1, r.2.2)) = some (false, 0) := by decide +kernel
/-- `C62_success` -/
example : (toBdd (Bdd.exPar 11) (fun _ => 13) (lateCfg 40) 10 10 [0, 1] ⟨[0, 1], []⟩).map (fun r => (r.1, r.2.2)) = some (true, 1) := by decide +kernel

end Verif.Enum
