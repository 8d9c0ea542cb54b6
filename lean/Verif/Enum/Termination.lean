import Verif.Enum.Props
/-!
# Model enumeration: termination, and what fails (C27)
-/
namespace Verif.Enum
open Verif
variable {α : Type} [DecidableEq α]

/-- strategy.go:84-134: `BasicStrategy` with `MaxModels = m` and an arbitrary provider for depth 0 -/
structure Basic (g : Cfg α) (m : Nat) : Prop where
  maxIter : ∀ d, g.maxIter d = max m 3
  maxSplit : ∀ d, g.maxSplit d = max m 3
  split : ∀ vs s d, g.split vs s (d + 1) = vs.take (vs.length / 2)
  reduce : ∀ vs d, g.reduce vs d = vs.take (vs.length / 2)

/-! ### One run of `iterate` -/

theorem iterLoop_some {g : Cfg α} {kn rel all : List α} {max : Nat} (F : Nat) :
    ∀ {found fs} {c : Coll α} {n}, max < found + F → 0 < F → iterLoop g kn rel all max F found fs c n ≠ none := by
  induction F with
  | zero => intro _ _ _ _ _ h; omega
  | succ F ih =>
    intro found fs c n h1 _ h
    rw [iterLoop] at h
    split at h
    · split at h
      · cases h
      · split at h
        · split at h
          · cases h
          · exact ih (by omega) (by omega) h
        · cases h
    · cases h

theorem iterLoop_unfinished {g : Cfg α} (hok : g.Ok) {kn rel all : List α} {max : Nat} (F : Nat) :
    ∀ {found fs} {c : Coll α} {n c' n'}, iterLoop g kn rel all max F found fs c n = some (false, true, c', n') →
      ∃ vs, max ≤ found + vs.length ∧ Found rel fs vs := by
  induction F with
  | zero => intro _ _ _ _ _ _ h; cases h
  | succ F ih =>
    intro found fs c n c' n' h
    rw [iterLoop] at h
    split at h
    · rename_i v hc
      have hv := hok.1 n fs v hc
      split at h
      · exact ⟨[v], by simpa using by assumption, ⟨by simpa using hv, by simp⟩⟩
      · split at h
        · split at h
          · cases h
          · obtain ⟨vs, h1, h2⟩ := ih h
            refine ⟨v :: vs, by simp; omega, ⟨?_, ?_⟩⟩
            · intro w hw
              rcases List.mem_cons.1 hw with rfl | hw
              · exact hv
              · exact (sat_append.1 (h2.sat w hw)).1
            · refine List.pairwise_cons.2 ⟨fun w hw => ?_, h2.diff⟩
              have := (sat_append.1 (h2.sat w hw)).2 _ (List.mem_singleton.2 rfl)
              obtain ⟨x, hx, hne⟩ := block_eval.1 this
              exact ⟨x, hx, fun e => hne e.symm⟩
        · cases h
    · cases h

theorem iterLoop_len {g : Cfg α} {kn rel all : List α} {max : Nat} (F : Nat) :
    ∀ {found fs} {c : Coll α} {n fin ok c' n'}, iterLoop g kn rel all max F found fs c n = some (fin, ok, c', n') →
      c'.unc.length = c.unc.length ∨ found + c'.unc.length < max + c.unc.length := by
  induction F with
  | zero => intro _ _ _ _ _ _ _ _ h; cases h
  | succ F ih =>
    intro found fs c n fin ok c' n' h
    have hadd : ∀ m, (c.addModel m).unc.length = c.unc.length + 1 := fun m => by simp [Coll.addModel]
    rw [iterLoop] at h
    split at h
    · split at h
      · simp only [Option.some.injEq, Prod.mk.injEq] at h
        obtain ⟨-, -, rfl, -⟩ := h
        exact .inl rfl
      · split at h
        · split at h
          · simp only [Option.some.injEq, Prod.mk.injEq] at h
            obtain ⟨-, -, rfl, -⟩ := h
            rw [hadd]; omega
          · have := ih h
            rw [hadd] at this
            omega
        · simp only [Option.some.injEq, Prod.mk.injEq] at h
          obtain ⟨-, -, rfl, -⟩ := h
          rw [hadd]; omega
    · simp only [Option.some.injEq, Prod.mk.injEq] at h
      obtain ⟨-, -, rfl, -⟩ := h
      exact .inl rfl

/-- assignments that differ on a list of at most one variable are at most two -/
theorem few {R : List α} {vs : List (α → Bool)} (hR : R.length ≤ 1) (h : vs.Pairwise fun v w => ∃ x ∈ R, v x ≠ w x) : vs.length ≤ 2 := by
  match vs, R, hR with
  | [], _, _ => simp
  | [_], _, _ => simp
  | [_, _], _, _ => simp
  | a :: b :: c :: _, [], _ =>
    simp at h
    exact absurd rfl (h.1 b).1
  | a :: b :: c :: _, [x], _ =>
    simp only [List.pairwise_cons, List.mem_cons, List.not_mem_nil, or_false, exists_eq_left] at h
    have h1 := h.1 b (by simp)
    have h2 := h.1 c (by simp)
    have h3 := h.2.1 c (by simp)
    revert h1 h2 h3
    cases a x <;> cases b x <;> cases c x <;> simp
  | _, _ :: _ :: _, h => simp at h

/-! ### Termination -/

theorem splitLoop_some {g : Cfg α} (hok : g.Ok) {m : Nat} (hb : Basic g m) {F : Nat} (hF : max m 3 < F) {s : St α} {d : Nat} (k : Nat) :
    ∀ {sv} {c : Coll α} {n}, sv.length < k →
      ∃ r, splitLoop g F s d k sv c n = some r ∧ ∀ nsv, r.1 = some nsv → (sv ≠ [] → nsv ≠ []) ∧ ∀ x ∈ nsv, x ∈ sv := by
  induction k with
  | zero => intro _ _ _ h; omega
  | succ k ih =>
    intro sv c n hlen
    rw [splitLoop]
    cases hi : iterate g F s sv [] (g.maxSplit d) c n with
    | none => exact absurd hi (iterLoop_some F (by rw [hb.maxSplit]; omega) (by omega))
    | some r =>
      obtain ⟨fin, ok, c1, n1⟩ := r
      cases ok with
      | false => exact ⟨_, rfl, by simp⟩
      | true =>
        cases fin with
        | true => exact ⟨_, rfl, by simp⟩
        | false =>
          simp only
          split
          · obtain ⟨vs, h1, h2⟩ := iterLoop_unfinished hok F hi
            rw [hb.maxSplit] at h1
            have hl : 2 ≤ sv.length := by
              by_contra hl
              have := few (R := sv.filter (· ∈ s.kn)) (by have := List.length_filter_le (· ∈ s.kn) sv; omega) h2.diff
              omega
            rw [hb.reduce]
            obtain ⟨r, h3, h4⟩ := ih (sv := sv.take (sv.length / 2)) (c := c1.rollback) (n := n1 + 1) (by rw [List.length_take]; omega)
            refine ⟨r, h3, fun nsv hn => ⟨fun _ => (h4 nsv hn).1 ?_, fun x hx => List.mem_of_mem_take ((h4 nsv hn).2 x hx)⟩⟩
            intro e
            have := congrArg List.length e
            rw [List.length_take, List.length_nil] at this
            omega
          · exact ⟨_, rfl, by simp⟩

theorem recLoop_some {g : Cfg α} {V A D N : List α}
    {rec : List (Lit α) → St α → Coll α → Nat → Option (Bool × St α × Coll α × Nat)}
    (hrec : ∀ a s c n ok s' c' n', Inv V A D N s → SmOk V D N a → CollOk D N c → rec a s c n = some (ok, s', c', n') →
      Post g V A D N s a c ok s' c')
    {sm : List (Lit α)} (hsm : SmOk V D N sm) (as : List (List (Lit α)))
    (hsome : ∀ a ∈ as, SmOk V D N a ∧ ∀ s c n, Inv V A D N s → CollOk D N c → rec (a ++ sm) s c n ≠ none) :
    ∀ {s c n}, Inv V A D N s → CollOk D N c → recLoop g rec sm as s c n ≠ none := by
  induction as with
  | nil => intro s c n _ _ h; cases h
  | cons a as ih =>
    intro s c n hs hc h
    rw [recLoop] at h
    cases hr : rec (a ++ sm) s c n with
    | none => exact (hsome a (by simp)).2 s c n hs hc hr
    | some r =>
      obtain ⟨ok, s', c', n'⟩ := r
      simp only [hr] at h
      obtain ⟨h1, -, L, rfl, -, -⟩ := hrec _ _ _ _ _ _ _ _ hs (fun l hl => by
        rcases List.mem_append.1 hl with hl | hl
        · exact (hsome a (by simp)).1 l hl
        · exact hsm l hl) hc hr
      split at h
      · exact ih (fun b hb => hsome b (by simp [hb])) h1 (by rw [(hc.more L).commit]; exact hc.more L) h
      · cases h

theorem iterRec_some {g : Cfg α} (hok : g.Ok) (hw : g.Within) {m : Nat} (hb : Basic g m) {V A N : List α} {F : Nat}
    (hF : max m 3 < F) (hFV : V.length < F) (k : Nat) :
    ∀ {sm sv d s c n}, Inv V A [] N s → SmOk V [] N sm → CollOk [] N c → (∀ x ∈ sv, x ∈ V) → sv.length ≤ V.length →
      ((V.filter (· ∉ sm.map (·.var))).length < k ∧ (sv ≠ [] ∨ (V.filter (· ∉ sm.map (·.var))).length ≤ 1) ∨
        (V.filter (· ∉ sm.map (·.var))).length + 1 < k) → (∀ x ∈ sv, x ∉ sm.map (·.var)) →
      iterRec g F V A k sm sv d s c n ≠ none := by
  induction k with
  | zero => intro _ _ _ _ _ _ _ _ _ _ _ h; omega
  | succ k ih =>
    intro sm sv d s c n hs hsm hc hsv hsl hk hdis h
    rw [iterRec] at h
    have hs1 := hs.add hsm
    have hkn : ∀ x ∈ V, x ∈ (s.add sm).kn := fun x hx => (hs1.known x hx).2 (by simp)
    cases hi : iterate g F (s.add sm) V A (g.maxIter d) c n with
    | none => exact iterLoop_some F (by rw [hb.maxIter]; omega) (by omega) hi
    | some r =>
      obtain ⟨fin, ok1, c1, n1⟩ := r
      obtain ⟨vs, h1, -, -, -⟩ := iterate_spec hok hi
      simp only [hi] at h
      cases ok1 with
      | false => cases h
      | true =>
        cases fin with
        | true => cases h
        | false =>
          simp only at h
          have hroll1 : c1.rollback = c := by rw [h1]; exact hc.rollback _
          rw [hroll1] at h
          -- at least two variables are not decided yet
          have htwo : 2 ≤ (V.filter (· ∉ sm.map (·.var))).length := by
            obtain ⟨ws, h3, h4⟩ := iterLoop_unfinished hok F hi
            rw [hb.maxIter] at h3
            by_contra hl
            have := few (R := V.filter (· ∉ sm.map (·.var))) (by omega) (h4.diff.imp_of_mem (by
              rintro v w hv hw ⟨x, hx, hne⟩
              refine ⟨x, ?_, hne⟩
              rw [List.mem_filter] at hx ⊢
              refine ⟨hx.1, ?_⟩
              simp only [decide_eq_true_eq]
              intro hm
              obtain ⟨l, hl, rfl⟩ := List.mem_map.1 hm
              have e1 := (sat_add.1 (h4.sat v hv)).2 l hl
              have e2 := (sat_add.1 (h4.sat w hw)).2 l hl
              exact hne (e1.trans e2.symm)))
            omega
          split at h
          · obtain ⟨r, hsp, hns⟩ := splitLoop_some hok hb hF (s := s.add sm) (d := d) F (sv := sv) (c := c) (n := n1 + 1) (by omega)
            obtain ⟨o, c2, n2⟩ := r
            simp only [hsp] at h
            rcases splitLoop_spec (V := V) hok hw F hc hsv hsp with ⟨rfl, rfl, hn⟩ | ⟨nsv, ws, rfl, g1, g2, g3, g4⟩
            · cases h
            · obtain ⟨hne, hsub⟩ := hns nsv rfl
              simp only at h
              have hroll : c2.rollback = c := by rw [g2]; exact hc.rollback _
              rw [hroll] at h
              split at h
              · obtain ⟨rem, hrem⟩ : ∃ rem, (V.filter (· ∉ nsv)).filter (· ∉ sm.map (·.var)) = rem := ⟨_, rfl⟩
                rw [hrem] at h
                obtain ⟨spl, hspl⟩ : ∃ spl, g.split rem (s.add sm) (d + 1) = spl := ⟨_, rfl⟩
                rw [hspl] at h
                have hspl2 : spl = rem.take (rem.length / 2) := by rw [← hspl, hb.split]
                have hremV : ∀ x ∈ rem, x ∈ V ∧ x ∉ nsv ∧ x ∉ sm.map (·.var) := by
                  intro x hx
                  rw [← hrem] at hx
                  simp only [List.mem_filter, decide_eq_true_eq] at hx
                  exact ⟨hx.1.1, hx.1.2, hx.2⟩
                have hsplR : ∀ x ∈ spl, x ∈ rem := fun x hx => by rw [hspl2] at hx; exact List.mem_of_mem_take hx
                have hunc : c2.unc = ws.map fun v => (N.map fun x => (⟨x, false⟩ : Lit α)) ++ litsOf (nsv.filter (· ∈ (s.add sm).kn)) v := by rw [g2]
                split at h
                · rename_i hrl
                  refine recLoop_some (g := g) (V := V) (A := A) (D := []) (N := N)
                    (fun a s c n ok s' c' n' i1 i2 i3 i4 => iterRec_spec hok hw List.nodup_nil k i1 i2 i3 (fun x hx => (hremV x (hsplR x hx)).1) i4)
                    hsm c2.unc ?_ hs1 hc hrl
                  intro a ha
                  rw [hunc] at ha
                  obtain ⟨v, -, rfl⟩ := List.mem_map.1 ha
                  have hsa : SmOk V [] N ((N.map fun x => (⟨x, false⟩ : Lit α)) ++ litsOf (nsv.filter (· ∈ (s.add sm).kn)) v) := by
                    intro l hl
                    rcases List.mem_append.1 hl with hl | hl
                    · obtain ⟨x, hx, rfl⟩ := List.mem_map.1 hl
                      exact .inr ⟨hx, rfl⟩
                    · obtain ⟨x, hx, rfl⟩ := List.mem_map.1 hl
                      exact .inl ⟨g1 x (List.mem_filter.1 hx).1, by simp⟩
                  refine ⟨hsa, fun s2 c3 n3 hs2 hc3 => ?_⟩
                  have hvars : ∀ x ∈ V, x ∈ (((N.map fun x => (⟨x, false⟩ : Lit α)) ++ litsOf (nsv.filter (· ∈ (s.add sm).kn)) v) ++ sm).map (·.var) ↔
                      x ∈ nsv ∨ x ∈ sm.map (·.var) := by
                    intro x hx
                    have hxN : x ∉ N := fun hn => hs.nV x hn hx
                    have hxk := hkn x hx
                    simp only [List.map_append, List.mem_append, List.mem_map, litsOf, List.map_map, Function.comp, List.mem_filter]
                    constructor
                    · rintro ((⟨y, hy, rfl⟩ | ⟨y, hy, rfl⟩) | h)
                      · exact absurd hy hxN
                      · exact .inl hy.1
                      · exact .inr h
                    · rintro (h | h)
                      · exact .inl (.inr ⟨x, ⟨h, by simpa using hxk⟩, rfl⟩)
                      · exact .inr h
                  have hflt : V.filter (· ∉ (((N.map fun x => (⟨x, false⟩ : Lit α)) ++ litsOf (nsv.filter (· ∈ (s.add sm).kn)) v) ++ sm).map (·.var)) = rem := by
                    rw [← hrem, List.filter_filter]
                    refine List.filter_congr fun x hx => ?_
                    have := hvars x hx
                    rw [Bool.eq_iff_iff, Bool.and_eq_true, decide_eq_true_eq, decide_eq_true_eq, decide_eq_true_eq, this]
                    tauto
                  refine ih hs2 ?_ hc3 (fun x hx => (hremV x (hsplR x hx)).1) ?_ ?_ ?_
                  · intro l hl
                    rcases List.mem_append.1 hl with hl | hl
                    · exact hsa l hl
                    · exact hsm l hl
                  · rw [hspl2, List.length_take]
                    have : rem.length ≤ V.length := by
                      rw [← hrem]
                      exact (List.length_filter_le _ _).trans (List.length_filter_le _ _)
                    omega
                  · left
                    rw [hflt]
                    have hrl2 : rem.length ≤ (V.filter (· ∉ sm.map (·.var))).length := by
                      rw [← hrem, List.filter_comm]
                      exact List.length_filter_le _ _
                    constructor
                    · rcases hk with ⟨h1, h2⟩ | h1
                      · have hsvne : sv ≠ [] := h2.resolve_right (by omega)
                        obtain ⟨x, hx⟩ := List.exists_mem_of_ne_nil _ (hne hsvne)
                        have hlt : rem.length < (V.filter (· ∉ sm.map (·.var))).length := by
                          rw [← hrem, List.filter_comm]
                          refine List.length_filter_lt_length_iff_exists.2 ⟨x, ?_, by simpa using hx⟩
                          rw [List.mem_filter]
                          exact ⟨g1 x hx, by simpa using hdis x (hsub x hx)⟩
                        omega
                      · omega
                    · by_cases h2 : rem.length ≤ 1
                      · exact .inr h2
                      · left
                        intro e
                        have := congrArg List.length (hspl2.symm.trans e)
                        rw [List.length_take, List.length_nil] at this
                        omega
                  · intro x hx
                    obtain ⟨e1, e2, e3⟩ := hremV x (hsplR x hx)
                    rw [hvars x e1]
                    exact fun h => h.elim e2 e3
                · cases h
              · cases h
          · cases h

/-- C27 (part): with `BasicStrategy` the enumeration ends for every handler, provided that all variables are known to the solver. Missing: unknown
variables, for which it need not end (`C27_diverges`). -/
theorem C27_terminates_partial {g : Cfg α} (hok : g.Ok) (hw : g.Within) {m : Nat} (hb : Basic g m) {V A : List α} {s : St α}
    (hsl : (g.split V s 0).length ≤ V.length)
    (hfs : ∀ f ∈ s.fs, ∀ x ∈ f.vars, x ∈ s.kn) (hV : ∀ x ∈ V, x ∈ s.kn) :
    ∃ F k, run g F k V A s ≠ none := by
  refine ⟨max m 3 + V.length + 1, V.length + 2, ?_⟩
  unfold run
  split
  · have hD : V.filter (· ∉ s.kn) = [] := List.filter_eq_nil_iff.2 fun x hx => by simpa using hV x hx
    have hi := inv_init (V := V) (A := A) hfs (fun x _ h => hV x h)
    rw [hD] at hi ⊢
    split
    · rename_i hn
      refine absurd hn (iterRec_some hok hw hb (by omega) (by omega) _ hi (by intro l hl; cases hl) ⟨rfl, rfl, rfl, rfl⟩
        (fun x hx => hw.1 _ _ _ x hx) hsl (.inr ?_) (by simp))
      have := List.length_filter_le (· ∉ ([] : List (Lit α)).map (·.var)) V
      omega
    · simp
  · simp

theorem found_length {R : List α} {vs : List (α → Bool)} (h : vs.Pairwise fun v w => ∃ x ∈ R, v x ≠ w x) : vs.length ≤ 2 ^ R.length := by
  have hn : (vs.map fun v => R.filter fun x => v x).Nodup := by
    unfold List.Nodup
    rw [List.pairwise_map]
    refine h.imp ?_
    rintro v w ⟨x, hx, hne⟩ e
    have := congrArg (x ∈ ·) e
    simp only [List.mem_filter, hx, true_and, eq_iff_iff] at this
    revert this hne
    cases v x <;> cases w x <;> simp
  have hs := (List.subperm_of_subset hn (l₂ := R.sublists') fun S hS => by
    obtain ⟨v, -, rfl⟩ := List.mem_map.1 hS
    exact List.mem_sublists'.2 List.filter_sublist).length_le
  rwa [List.length_map, List.length_sublists'] at hs

/-- C27: without splitting (`NoSplitStrategy`; the limit is larger than the number of assignments) the enumeration ends for every handler. -/
theorem C27_terminates_nosplit {g : Cfg α} (hok : g.Ok) {V A : List α} {s : St α} (hm : 2 ^ V.length < g.maxIter 0) :
    ∃ F k, run g F k V A s ≠ none := by
  refine ⟨g.maxIter 0 + 1, 1, ?_⟩
  unfold run
  split
  · split
    · rename_i hn
      rw [iterRec] at hn
      split at hn
      · rename_i hi
        exact absurd hi (iterLoop_some _ (by omega) (by omega))
      · cases hn
      · cases hn
      · rename_i hi
        obtain ⟨vs, h1, h2⟩ := iterLoop_unfinished hok _ hi
        have h3 := found_length h2.diff
        have h4 := Nat.pow_le_pow_right (n := 2) (by omega) (List.length_filter_le (· ∈ (s.add []).kn) V)
        simp only [Nat.zero_add] at h1
        exact absurd (h1.trans (h3.trans h4)) (by omega)
    · simp
  · simp

/-! ### What fails -/

open Classical in
/-- a correct solver -/
noncomputable def solver (fs : List (Fm α)) : Option (α → Bool) := if h : ∃ v, Sat v fs then some h.choose else none

theorem solver_ok (g : Cfg α) (h : ∀ n fs, g.call n fs = some (solver fs)) : g.Ok := by
  constructor
  · intro n fs v hc
    rw [h] at hc
    unfold solver at hc
    split at hc
    · rename_i he
      simp only [Option.some.injEq] at hc
      rw [← hc]
      exact he.choose_spec
    · cases hc
  · intro n fs hc
    rw [h] at hc
    unfold solver at hc
    split at hc
    · cases hc
    · assumption

namespace Diverge

/-- variables 4 and 5 occur on the solver, 0 to 3 do not -/
def s : St Nat := ⟨[4, 5], [.or [.lit ⟨4, true⟩, .lit ⟨5, true⟩]]⟩
def V : List Nat := [0, 1, 2, 3, 4, 5]

/-- a formula with three models is not enumerated with a limit of three -/
theorem unfinished {g : Cfg Nat} (hok : g.Ok) (ht : g.Total) {F : Nat} {vs : List Nat} (hvs : vs.filter (· ∈ s.kn) = [4, 5]) {A : List Nat}
    {c : Coll Nat} {n fin ok c' n'} (h : iterate g F s vs A 3 c n = some (fin, ok, c', n')) (hc : c.unc = []) :
    fin = false ∧ ok = true := by
  obtain ⟨ws, h1, h2, h3, h4⟩ := iterate_spec hok h
  refine ⟨?_, h3 ht⟩
  by_contra hf
  have hall := h4 ht (by cases fin <;> simp at hf ⊢)
  rw [hvs] at hall
  have hlen := iterLoop_len F h
  rw [h1, hc] at hlen
  simp only [List.nil_append, List.length_map, List.length_nil] at hlen
  have hsub : [(true, true), (true, false), (false, true)].Subperm (ws.map fun w => (w 4, w 5)) := by
    refine List.subperm_of_subset (by decide) ?_
    intro p hp
    have hs : Sat (fun x => if x = 4 then p.1 else p.2) s.fs := by
      intro f hf
      simp only [s, List.mem_singleton] at hf
      subst hf
      simp only [List.mem_cons, List.not_mem_nil, or_false] at hp
      rcases hp with rfl | rfl | rfl <;> simp [Lit.eval]
    obtain ⟨w, hw, ha⟩ := hall _ hs
    refine List.mem_map.2 ⟨w, hw, ?_⟩
    have e4 := ha 4 (by simp)
    have e5 := ha 5 (by simp)
    simp at e4 e5
    rw [← e4, ← e5]
  have := hsub.length_le
  simp only [List.length_map, List.length_cons, List.length_nil] at this
  omega

/-- a split by unknown variables leaves everything as it is -/
theorem useless {g : Cfg Nat} (hok : g.Ok) (ht : g.Total) {F : Nat} {sv : List Nat} (hsv : sv.filter (· ∈ s.kn) = [])
    {c : Coll Nat} {n fin ok c' n'} (h : iterate g F s sv [] 3 c n = some (fin, ok, c', n')) (hc : c.unc = []) (hn : c.neg = []) :
    fin = true ∧ ok = true ∧ ∃ k, c' = { c with unc := List.replicate (k + 1) [] } := by
  obtain ⟨ws, h1, h2, h3, h4⟩ := iterate_spec hok h
  have hf : fin = true := by
    by_contra hf
    have e1 : fin = false := by simpa using hf
    have e2 := h3 ht
    subst e1; subst e2
    obtain ⟨vs, h5, h6⟩ := iterLoop_unfinished hok F h
    have := few (R := sv.filter (· ∈ s.kn)) (by rw [hsv]; simp) h6.diff
    omega
  refine ⟨hf, h3 ht, ?_⟩
  obtain ⟨w, hw, -⟩ := h4 ht hf (fun _ => true) (by
    intro f hf
    simp only [s, List.mem_singleton] at hf
    subst hf
    simp [Lit.eval])
  refine ⟨ws.length - 1, ?_⟩
  rw [h1, hc, hn, hsv]
  have hl : ws.length - 1 + 1 = ws.length := by
    have := List.length_pos_of_mem hw
    omega
  rw [hl]
  have he : (ws.map fun v => ([] : List (Lit Nat)) ++ litsOf ([] ++ (([] : List Nat).filter (· ∉ sv)).filter (· ∈ s.kn)) v) = List.replicate ws.length [] :=
    List.eq_replicate_iff.2 ⟨by simp, by intro b hb; obtain ⟨v, -, rfl⟩ := List.mem_map.1 hb; rfl⟩
  rw [he]
  rfl

theorem splitLoop_useless {g : Cfg Nat} (hok : g.Ok) (ht : g.Total) (hb : Basic g 3) {F d k : Nat} {sv : List Nat} (hsv : sv.filter (· ∈ s.kn) = [])
    {c : Coll Nat} {n o c' n'} (h : splitLoop g F s d k sv c n = some (o, c', n')) (hc : c.unc = []) (hn : c.neg = []) :
    o = some sv ∧ ∃ k, c' = { c with unc := List.replicate (k + 1) [] } := by
  cases k with
  | zero => cases h
  | succ k =>
    rw [splitLoop, hb.maxSplit] at h
    cases hi : iterate g F s sv [] (max 3 3) c n with
    | none => simp only [hi] at h; cases h
    | some r =>
      obtain ⟨fin, ok, c1, n1⟩ := r
      obtain ⟨rfl, rfl, k, rfl⟩ := useless hok ht hsv hi hc hn
      simp only [hi, Option.some.injEq, Prod.mk.injEq] at h
      obtain ⟨rfl, rfl, rfl⟩ := h
      exact ⟨rfl, k, rfl⟩

theorem iterRec_step {g : Cfg Nat} (hok : g.Ok) (ht : g.Total) (hb : Basic g 3) {F k d : Nat} {sv : List Nat}
    (hsv : sv.filter (· ∈ s.kn) = []) {c : Coll Nat} {n : Nat} (hc : c.unc = []) (hn : c.neg = [])
    (hnext : ∀ c n, c.unc = [] → c.neg = [] →
      iterRec g F V [] k [] ((V.filter (· ∉ sv)).take ((V.filter (· ∉ sv)).length / 2)) (d + 1) s c n = none) :
    iterRec g F V [] (k + 1) [] sv d s c n = none := by
  rw [iterRec]
  have hs : s.add [] = s := by simp [St.add]
  rw [hs, hb.maxIter]
  cases hi : iterate g F s V [] (max 3 3) c n with
  | none => rfl
  | some r =>
    obtain ⟨fin, ok, c1, n1⟩ := r
    obtain ⟨rfl, rfl⟩ := unfinished hok ht (by decide) hi hc
    simp only [ht.2, if_true]
    obtain ⟨vs, h1, -⟩ := iterate_spec hok hi
    have hr : c1.rollback = c := by rw [h1]; obtain ⟨_, _, _, _, _, _⟩ := c; subst hc; rfl
    rw [hr]
    cases hsp : splitLoop g F s d F sv c (n1 + 1) with
    | none => rfl
    | some r =>
      obtain ⟨o, c2, n2⟩ := r
      obtain ⟨rfl, k, rfl⟩ := splitLoop_useless hok ht hb hsv hsp hc hn
      simp only [List.map_nil, List.not_mem_nil, not_false_eq_true, decide_true, List.filter_true, hb.split]
      have hr2 : ({ c with unc := List.replicate (k + 1) [] } : Coll Nat).rollback = c := by
        obtain ⟨_, _, _, _, _, _⟩ := c; subst hc; rfl
      rw [hr2, List.replicate_succ, recLoop, List.append_nil, hnext c _ hc hn]

theorem cycle {g : Cfg Nat} (hok : g.Ok) (ht : g.Total) (hb : Basic g 3) {F : Nat} (k : Nat) :
    ∀ d (c : Coll Nat) n, c.unc = [] → c.neg = [] →
      iterRec g F V [] k [] [0, 1] d s c n = none ∧ iterRec g F V [] k [] [2, 3] d s c n = none := by
  induction k with
  | zero => intro d c n _ _; exact ⟨rfl, rfl⟩
  | succ k ih =>
    intro d c n hc hn
    exact ⟨iterRec_step hok ht hb (by decide) hc hn fun c n h1 h2 => (ih _ c n h1 h2).2,
      iterRec_step hok ht hb (by decide) hc hn fun c n h1 h2 => (ih _ c n h1 h2).1⟩

end Diverge

open Diverge in
/-- C27 (negative): with `BasicStrategy`, `MaxModels = 3` and `MostCommonVarProvider` (which chooses the variables 3, 4, 5) the enumeration of the models
of `x4 ∨ x5` over the variables 0 to 5 does not end: however deep the recursion may go, there is no result, for every correct solver and without any cancellation. -/
theorem C27_diverges {g : Cfg Nat} (hok : g.Ok) (ht : g.Total) (hb : Basic g 3) (hp : g.split V s 0 = [3, 4, 5]) (F k : Nat) :
    run g F k V [] s = none := by
  unfold run
  rw [if_pos (ht.2 0), hp]
  have key : iterRec g F V [] k [] [3, 4, 5] 0 s (newColl (V.filter (· ∉ s.kn)) (([] : List Nat).filter (· ∉ s.kn))) 1 = none := by
    obtain ⟨c, hcc⟩ : ∃ c, newColl (V.filter (· ∉ s.kn)) (([] : List Nat).filter (· ∉ s.kn)) = c := ⟨_, rfl⟩
    have hc : c.unc = [] := by rw [← hcc]; rfl
    have hn : c.neg = [] := by rw [← hcc]; rfl
    rw [hcc]
    cases k with
    | zero => rfl
    | succ k =>
      -- the split by 3, 4, 5 has three assignments and is reduced to 3
      rw [iterRec]
      have hs : s.add [] = s := by simp [St.add]
      rw [hs, hb.maxIter]
      cases hi : iterate g F s V [] (max 3 3) c 1 with
      | none => rfl
      | some r =>
        obtain ⟨fin, ok, c1, n1⟩ := r
        obtain ⟨rfl, rfl⟩ := unfinished hok ht (by decide) hi hc
        simp only [ht.2, if_true]
        obtain ⟨vs, h1, -⟩ := iterate_spec hok hi
        have hr : c1.rollback = c := by rw [h1]; obtain ⟨_, _, _, _, _, _⟩ := c; subst hc; rfl
        rw [hr]
        have hsl : ∀ n, splitLoop g F s 0 F [3, 4, 5] c n = none ∨ ∃ m n' , splitLoop g F s 0 F [3, 4, 5] c n = splitLoop g F s 0 m [3] c n' := by
          intro n
          cases F with
          | zero => exact .inl rfl
          | succ F =>
            rw [splitLoop, hb.maxSplit]
            cases hi : iterate g (F + 1) s [3, 4, 5] [] (max 3 3) c n with
            | none => exact .inl rfl
            | some r =>
              obtain ⟨fin, ok, c1, n1⟩ := r
              obtain ⟨rfl, rfl⟩ := unfinished hok ht (by decide) hi hc
              obtain ⟨vs, h1, -⟩ := iterate_spec hok hi
              have hr : c1.rollback = c := by rw [h1]; obtain ⟨_, _, _, _, _, _⟩ := c; subst hc; rfl
              simp only [ht.2, if_true, hr, hb.reduce]
              exact .inr ⟨F, n1 + 1, rfl⟩
        rcases hsl (n1 + 1) with h | ⟨m, n', h⟩
        · rw [h]
        · rw [h]
          cases hsp : splitLoop g F s 0 m [3] c n' with
          | none => rfl
          | some r =>
            obtain ⟨o, c2, n2⟩ := r
            obtain ⟨rfl, j, rfl⟩ := splitLoop_useless hok ht hb (by decide) hsp hc hn
            simp only [List.map_nil, List.not_mem_nil, not_false_eq_true, decide_true, List.filter_true, hb.split]
            have hr2 : ({ c with unc := List.replicate (j + 1) [] } : Coll Nat).rollback = c := by
              obtain ⟨_, _, _, _, _, _⟩ := c; subst hc; rfl
            rw [hr2, List.replicate_succ, recLoop, List.append_nil]
            have := (cycle (F := F) hok ht hb k 1 c (n2 + 1) hc hn).1
            have e : (V.filter (· ∉ [3])).take ((V.filter (· ∉ [3])).length / 2) = [0, 1] := by decide
            rw [e, this]
  rw [key]

open Diverge in
/-- the hypotheses of `C27_diverges` can be met -/
example : ∃ g : Cfg Nat, g.Ok ∧ g.Total ∧ Basic g 3 ∧ g.Within ∧ g.split V s 0 = [3, 4, 5] := by
  refine ⟨⟨fun _ fs => some (solver fs), fun _ => true, fun _ => max 3 3, fun _ => max 3 3,
    fun vs _ d => if d = 0 then vs.drop (vs.length / 2) else vs.take (vs.length / 2), fun vs _ => vs.take (vs.length / 2)⟩,
    solver_ok _ fun _ _ => rfl, ⟨by simp, by simp⟩, ⟨fun _ => rfl, fun _ => rfl, fun _ _ _ => rfl, fun _ _ => rfl⟩, ⟨?_, ?_⟩, rfl⟩
  · intro vs s d x hx
    simp only at hx
    split at hx
    · exact List.mem_of_mem_drop hx
    · exact List.mem_of_mem_take hx
  · intro vs d x hx
    exact List.mem_of_mem_take hx

/-- C27 (negative): a cancelled call of the solver counts as "unsatisfiable" (iteration.go:202-205). If only that call is cancelled, the
enumeration reports success although models are missing. -/
theorem C27_cancel_false : ∃ (g : Cfg Nat) (s : St Nat), g.Ok ∧ g.Within ∧ (∀ n, g.go n = true) ∧
    run g 5 5 [0] [] s = some (true, [], 0) ∧ ∃ v, Sat v s.fs := by
  refine ⟨⟨fun _ _ => none, fun _ => true, fun _ => 100, fun _ => 100, fun _ _ _ => [], fun _ _ => []⟩, ⟨[0], []⟩,
    ⟨by simp, by simp⟩, ⟨by simp, by simp⟩, by simp, by decide +kernel, fun _ => true, by simp [Sat]⟩

/-- C27 (negative): an additional variable that is among the variables and unknown to the solver occurs in both phases in one model -/
theorem C27_additional_false {g : Cfg Nat} (hok : g.Ok) (ht : g.Total) (hm : 3 ≤ g.maxIter 0) :
    ∃ cnt L, run g 5 5 [0] [0] ⟨[], []⟩ = some (true, L, cnt) ∧ ∃ M ∈ L, (⟨0, true⟩ : Lit Nat) ∈ M ∧ (⟨0, false⟩ : Lit Nat) ∈ M := by
  have h1 : ∃ v, g.call 1 [] = some (some v) := by
    cases h : g.call 1 [] with
    | none => exact absurd h (ht.1 _ _)
    | some o =>
      cases o with
      | none => exact absurd ⟨fun _ => true, by simp [Sat]⟩ (hok.2 _ _ h)
      | some v => exact ⟨v, rfl⟩
  obtain ⟨v, hv⟩ := h1
  refine ⟨2, [[⟨0, true⟩, ⟨0, false⟩], [⟨0, false⟩, ⟨0, false⟩]], ?_, _, List.mem_cons_self, by decide, by decide⟩
  have hm' : ¬ g.maxIter 0 ≤ 1 := by omega
  simp [run, ht.2, iterRec, iterate, iterLoop, St.add, hv, hm', newColl, cartesian, Coll.addModel, Coll.commit, litsOf]

/-! ### Examples -/

/-- three models of `x0 ∨ x1` and one unknown variable 2: enumerated as the theorems say -/
example {g : Cfg Nat} (hok : g.Ok) (hw : g.Within) (ht : g.Total) {F k ok L cnt}
    (h : run g F k [0, 1, 2] [] ⟨[0, 1], [.or [.lit ⟨0, true⟩, .lit ⟨1, true⟩]]⟩ = some (ok, L, cnt)) : ok = true ∧ cnt = 6 := by
  obtain ⟨h1, -, h3⟩ := C27_enumeration hok hw ht (by decide) (by
    intro f hf x hx
    simp only [List.mem_singleton] at hf
    subst hf
    simpa using hx) (by simp) h
  refine ⟨h1, h3.trans ?_⟩
  have : count [0, 1, 2] (fun w : Nat → Bool => w 0 || w 1) = 6 := by decide +kernel
  rw [← this]
  unfold count
  refine List.countP_congr fun S _ => ?_
  simp only [decide_eq_true_eq]
  constructor
  · rintro ⟨u, h4, h5⟩
    have := h4 _ (List.mem_singleton.2 rfl)
    rw [← h5 0 (by simp), ← h5 1 (by simp)]
    simpa [Lit.eval] using this
  · intro h4
    exact ⟨asgOf S, by intro f hf; simp only [List.mem_singleton] at hf; subst hf; simpa [Lit.eval] using h4, by simp⟩

end Verif.Enum
