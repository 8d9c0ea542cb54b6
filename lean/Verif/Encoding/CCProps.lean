import Verif.Encoding.CCTop
import Verif.Encoding.Incremental
/-!
# Properties of the cardinality encodings (C13, C14)
-/
set_option linter.unusedSectionVars false
namespace Verif.Enc
open Verif
variable {α : Type}

theorem usrs_length (vars : List α) : (usrs vars).length = vars.length := by simp [usrs]

theorem sat_units {w : EV α → Bool} {ls : List (Lit (EV α))} : Sat w (units ls) ↔ ls.length ≤ cnt w ls := by
  unfold units
  rw [sat_map]
  have hle := cnt_le w ls
  have : ls.length ≤ cnt w ls ↔ cnt w ls = ls.length := by omega
  rw [this]
  unfold cnt
  rw [List.countP_eq_length]
  simp
theorem units_exact {k : Nat} {ls : List (Lit (EV α))} : Exact k k ls (units ls) (fun w => ls.length ≤ cnt w ls) :=
  .direct (fun c hc l hl => by
    obtain ⟨a, ha, rfl⟩ := List.mem_map.1 hc
    rw [List.mem_singleton.1 hl]; exact ⟨a, ha, rfl⟩) fun v => sat_units
theorem negUnits_exact {k : Nat} {ls : List (Lit (EV α))} : Exact k k ls (units (ls.map Lit.neg)) (fun w => cnt w ls = 0) :=
  (units_exact (ls := ls.map Lit.neg)).unneg fun w => by
    have := cnt_neg w ls
    rw [List.length_map]; omega
theorem none_exact {k : Nat} {ls : List (Lit (EV α))} {C : (EV α → Bool) → Prop} (h : ∀ w, C w) : Exact k k ls [] C :=
  .direct (by simp) fun v => by simp [h]
theorem false_exact {k : Nat} {ls : List (Lit (EV α))} {C : (EV α → Bool) → Prop} (h : ∀ w, ¬C w) : Exact k k ls [[]] C :=
  .direct (by simp) fun v => by simp [h]
theorem some_exact {k : Nat} {ls : List (Lit (EV α))} : Exact k k ls [ls] (fun w => 1 ≤ cnt w ls) :=
  .direct (by simp; exact fun l hl => ⟨l, hl, rfl⟩) fun v => by
    simp only [sat_cons, sat_nil, and_true]; exact cnt_pos.symm

theorem amk_exact {cfg : CCCfg} {k rhs : Nat} {vars : List (Lit (EV α))} (ho : ∀ l ∈ vars, Old k l) :
    Exact k (amk [] cfg k vars rhs).2 vars (amk [] cfg k vars rhs).1 (fun w => cnt w vars ≤ rhs) := by
  unfold amk
  split
  · exact none_exact fun w => Nat.le_trans (cnt_le w vars) (by assumption)
  · split
    · subst rhs
      exact negUnits_exact.congr (fun l hl => ⟨l, hl, rfl⟩) fun w => by omega
    · have h0 : 0 < rhs := by omega
      have hn : rhs < vars.length := by omega
      have tt : Exact k (totalizerAMK k vars rhs).k vars (totalizerAMK k vars rhs).cls (fun w => cnt w vars ≤ rhs) := by
        obtain ⟨core, hc, T⟩ := totalizerAMK_tight h0 hn ho
        rw [hc]; exact T.exact (Nat.le_refl _)
      have mm : Exact k (modAMK k vars rhs).k vars (modAMK k vars rhs).cls (fun w => cnt w vars ≤ rhs) := by
        obtain ⟨core, hc, T⟩ := modAMK_tight h0 hn ho
        rw [hc]; exact T.exact (Nat.le_refl _)
      cases cfg.amk
      · exact tt
      · exact mm
      · exact cnAmk_exact hn ho
      · exact mm

theorem alk_exact {cfg : CCCfg} {k rhs : Nat} {vars : List (Lit (EV α))} (ho : ∀ l ∈ vars, Old k l) :
    Exact k (alk [] cfg k vars rhs).2 vars (alk [] cfg k vars rhs).1 (fun w => rhs ≤ cnt w vars) := by
  unfold alk
  split
  · exact false_exact fun w => by have := cnt_le w vars; omega
  · split
    · exact none_exact fun w => by omega
    · split
      · subst rhs; exact some_exact
      · split
        · subst rhs; exact units_exact
        · have h0 : 0 < rhs := by omega
          have hn : rhs < vars.length := by omega
          have mm : Exact k (modALK k vars rhs).k vars (modALK k vars rhs).cls (fun w => rhs ≤ cnt w vars) := by
            obtain ⟨core, hc, T⟩ := modALK_tight h0 hn ho
            rw [hc]; exact T.exact (r := rhs) ⟨Nat.le_refl _, by omega⟩
          cases cfg.alk
          · obtain ⟨core, hc, T⟩ := totalizerALK_tight (rhs := rhs) (k := k) (vars := vars) (by omega) ho
            simp only
            rw [hc]; exact T.exact (by omega)
          · exact mm
          · exact cnAlk_exact h0 (by omega) ho
          · exact mm

theorem exk_exact {cfg : CCCfg} {k rhs : Nat} {vars : List (Lit (EV α))} {r : List (Clause α) × Nat} (ho : ∀ l ∈ vars, Old k l) (h : exk [] cfg k vars rhs = some r) :
    Exact k r.2 vars r.1 (fun w => cnt w vars = rhs) := by
  unfold exk at h
  split at h
  · cases h
    exact false_exact fun w => by have := cnt_le w vars; omega
  · split at h
    · cases h; subst rhs; exact negUnits_exact
    · split at h
      · cases h; subst rhs
        exact units_exact.congr (fun l hl => ⟨l, hl, rfl⟩) fun w => by have := cnt_le w vars; omega
      · cases he : cfg.exk <;> simp only [he] at h <;> cases h
        · exact totalizerEXK_exact (by omega) (by omega) ho
        · exact cnExk_exact (by omega) (by omega) ho
        · exact totalizerEXK_exact (by omega) (by omega) ho

theorem cntTrue_countP (v : α → Bool) (vars : List α) : cntTrue v vars = ((vars.countP v : Nat) : Int) := by
  induction vars with
  | nil => rfl
  | cons x xs ih =>
    rw [cntTrue, ih, List.countP_cons]
    split <;> simp [*]
    omega

/-- **C13.** Whatever encoder is configured and whatever the comparator and the right-hand side: if the encoder returns, its clauses encode exactly
the cardinality constraint (as it is evaluated, C06), with fresh auxiliary variables only. -/
theorem C13_encodeCC_partial {cfg : CCCfg} {fuel k rhs : Nat} {c : Cmp} {vars : List α} {r : List (Clause α) × Nat} (h : encodeCC [] cfg fuel k c rhs (usrs vars) = some r) :
    Encodes vars k r.2 r.1 (fun v => (Fm.cc c rhs vars).eval v = true) := by
  have conv : ∀ {r : List (Clause α) × Nat} {C : Nat → Prop}, Exact k r.2 (usrs vars) r.1 (fun w => C (cnt w (usrs vars))) →
      (∀ n : Nat, C n ↔ c.holds n rhs = true) → Encodes vars k r.2 r.1 (fun v => (Fm.cc c rhs vars).eval v = true) := fun E hC =>
    E.encodes fun w => by
      rw [cnt_usrs, Fm.eval_cc, cntTrue_countP]; exact hC _
  have amoE : ∀ {r : List (Clause α) × Nat}, amo cfg.amo fuel k (usrs vars) = some r → Exact k r.2 (usrs vars) r.1 (fun w => cnt w (usrs vars) ≤ 1) := amo_exact usrs_old
  unfold encodeCC at h
  cases c <;> simp only at h
  · split at h
    · subst rhs
      have E := C12_exo h
      exact ⟨fun w hw => by have := E.sound w hw; rw [Fm.eval_cc, cntTrue_countP]; simp [Cmp.holds]; exact_mod_cast this,
        fun v g hv => E.complete v g (by rw [Fm.eval_cc, cntTrue_countP] at hv; simp [Cmp.holds] at hv; exact_mod_cast hv), E.vars⟩
    · exact conv (C := (· = rhs)) (exk_exact usrs_old h) fun n => by simp [Cmp.holds]
  · split at h
    · subst rhs; exact conv (C := (· ≤ 1)) (amoE h) fun n => by simp [Cmp.holds]
    · cases h; exact conv (C := (· ≤ rhs)) (amk_exact usrs_old) fun n => by simp [Cmp.holds]
  · split at h
    · cases h
    · split at h
      · subst rhs; exact conv (C := (· ≤ 1)) (amoE h) fun n => by simp [Cmp.holds]; omega
      · cases h; exact conv (C := (· ≤ rhs - 1)) (amk_exact usrs_old) fun n => by simp [Cmp.holds]; omega
  · cases h; exact conv (C := (rhs ≤ ·)) (alk_exact usrs_old) fun n => by simp [Cmp.holds]
  · cases h; exact conv (C := (rhs + 1 ≤ ·)) (alk_exact usrs_old) fun n => by simp [Cmp.holds]; omega

/-- the comparators and right-hand sides which the encoder accepts, and the encoders which the configuration allows -/
def CCCfg.ok (cfg : CCCfg) : Prop := cfg.amo.ok ∧ cfg.exk ≠ .modular

/-- **C13 (termination).** Every configured encoder returns, except for `< 0` (for which the code panics or adds no clause at all). -/
theorem C13_returns_partial {cfg : CCCfg} (hc : cfg.ok) (k : Nat) (c : Cmp) (rhs : Nat) (vars : List α) (h : ¬(c = .lt ∧ rhs = 0)) :
    ∃ r, encodeCC [] cfg (vars.length + 1) k c rhs (usrs vars) = some r := by
  have hamo := C12_terminates hc.1 k vars
  unfold encodeCC
  cases c <;> simp only
  · split
    · unfold exo
      split
      · exact ⟨_, rfl⟩
      · split
        · exact ⟨_, rfl⟩
        · obtain ⟨r, hr⟩ := hamo; rw [hr]; exact ⟨_, rfl⟩
    · unfold exk
      split
      · exact ⟨_, rfl⟩
      · split
        · exact ⟨_, rfl⟩
        · split
          · exact ⟨_, rfl⟩
          · have := hc.2
            cases he : cfg.exk <;> simp_all
  · split
    · exact hamo
    · exact ⟨_, rfl⟩
  · rw [if_neg (by simpa using h)]
    split
    · exact hamo
    · exact ⟨_, rfl⟩
  · exact ⟨_, rfl⟩
  · exact ⟨_, rfl⟩

/-- **C13 (counterexample).** When clauses go directly to a solver, the zero literals which `clear` leaves in the clause of `directSorter` become
a literal of the solver (sat/encoding_result.go:27-42: the unknown literal has the empty name and negative phase).  The cardinality network then does
not enforce `a + b + c + d ≤ 2`: all four variables can be true. -/
theorem C13_solver_false : ∃ (cfg : CCCfg) (r : List (Clause (Option Nat)) × Nat) (w : EV (Option Nat) → Bool),
    encodeCC [⟨.usr none, false⟩] cfg 9 0 .le 2 (usrs [some 0, some 1, some 2, some 3]) = some r ∧ Sat w r.1 ∧
    (Fm.cc .le 2 [some 0, some 1, some 2, some 3]).eval (fun a => w (.usr a)) = false := by
  let z : Clause (Option Nat) := [⟨.usr none, false⟩]
  let x : List (Lit (EV (Option Nat))) := usrs [some 0, some 1, some 2, some 3]
  let w : EV (Option Nat) → Bool := fun | .usr none => false | .usr (some _) => true | .aux n => n ≤ 1
  let d := directSorter z 3 0 x
  refine ⟨⟨cfgOf .best, .network, .network, .network⟩, (d.cls ++ ocl [oneg d.out[2]?], d.k), w, ?_, ?_, ?_⟩
  · have hs : sort z .io 3 0 x = d := by
      rw [sort.eq_def, if_neg (by omega)]
      show (if Dir.io = Dir.io then _ else _) = _
      rw [if_pos rfl, if_neg (by decide)]
      rfl
    show some (amk z _ 0 x 2) = _
    unfold amk
    rw [if_neg (by simp [x, usrs]), if_neg (by omega)]
    simp only [cnAmk]
    rw [if_neg (by simp [x, usrs]), hs]
  · have : ∀ c ∈ d.cls ++ ocl [oneg d.out[2]?], ∃ l ∈ c, l.eval w = true := by decide +kernel
    exact this
  · decide +kernel

/-! concrete cases -/
def ccOf (e : AmkEnc) : CCCfg := ⟨cfgOf .best, e, e, e⟩
example : (ccOf .network).ok := ⟨by simp [AmoCfg.ok, ccOf, cfgOf], by simp [ccOf]⟩
example : (encodeCC [] (ccOf .totalizer) 9 0 .le 3 (usrs [0, 1, 2, 3, 4, 5, 6])).isSome := by decide +kernel
example : (encodeCC [] (ccOf .modular) 9 0 .ge 3 (usrs [0, 1, 2, 3, 4, 5, 6])).isSome := by decide +kernel
example : (encodeCC [] (ccOf .network) 9 0 .eq 3 (usrs [0, 1, 2, 3, 4, 5, 6])).isSome := by decide +kernel

/-! ### C14 -/

/-- the bounds tighten: strictly decreasing from `b` -/
def Down (b : Nat) : List Nat → Prop
  | [] => True
  | r :: rs => r < b ∧ Down r rs
/-- strictly increasing from `b`, at most `n` -/
def Upw (n b : Nat) : List Nat → Prop
  | [] => True
  | r :: rs => b < r ∧ r ≤ n ∧ Upw n r rs
/-- the last bound -/
def lastBound (b : Nat) (rs : List Nat) : Nat := (b :: rs).getLastD 0

theorem lastBound_cons (b r : Nat) (rs : List Nat) : lastBound b (r :: rs) = lastBound r rs := by simp [lastBound]

theorem down_all {C : Nat → Prop} (hC : ∀ a b : Nat, a ≤ b → C a → C b) : ∀ {rs : List Nat} {b : Nat}, Down b rs → ((∀ r ∈ b :: rs, C r) ↔ C (lastBound b rs))
  | [], b, _ => by simp [lastBound]
  | r :: rs, b, h => by
    rw [lastBound_cons, List.forall_mem_cons, down_all hC h.2]
    refine ⟨fun h => h.2, fun h' => ⟨?_, h'⟩⟩
    have := (down_all hC h.2).2 h' r (by simp)
    exact hC _ _ (by have := h.1; omega) this
theorem upw_all {n : Nat} {C : Nat → Prop} (hC : ∀ a b : Nat, b ≤ a → C a → C b) : ∀ {rs : List Nat} {b : Nat}, Upw n b rs → ((∀ r ∈ b :: rs, C r) ↔ C (lastBound b rs))
  | [], b, _ => by simp [lastBound]
  | r :: rs, b, h => by
    rw [lastBound_cons, List.forall_mem_cons, upw_all hC h.2.2]
    refine ⟨fun h => h.2, fun h' => ⟨?_, h'⟩⟩
    have := (upw_all hC h.2.2).2 h' r (by simp)
    exact hC _ _ (by have := h.1; omega) this

/-- the clauses which `newUpper` adds -/
def upCls (s : Inc α) (r : Nat) : List (Clause α) :=
  match s.enc with
  | .modular => mtOutput s.mod s.vec1 s.vec2 r
  | .totalizer => totUpper s.vec1 r
  | _ => ocl [oneg s.vec1[r]?]
def loCls (s : Inc α) (r : Nat) : List (Clause α) :=
  match s.enc with
  | .totalizer => totLower s.vec1 r
  | .modular => mtOutput s.mod s.vec1 s.vec2 (s.nVars - r)
  | _ => ocl [oneg s.vec1[s.nVars - r]?]

theorem newUpper_eq {s : Inc α} {r : Nat} (he : s.enc ≠ .best) : newUpper s r = if r < s.cur then some { s with cur := r, cls := s.cls ++ upCls s r } else none := by
  unfold newUpper upCls
  by_cases h : r < s.cur
  · rw [if_neg (by omega), if_pos h]
    cases e : s.enc <;> simp_all
  · rw [if_pos (by omega), if_neg h]
theorem newLower_eq {s : Inc α} {r : Nat} (he : s.enc ≠ .best) : newLower s r = if s.cur < r ∧ r ≤ s.nVars then some { s with cur := r, cls := s.cls ++ loCls s r } else none := by
  unfold newLower loCls
  by_cases h : s.cur < r ∧ r ≤ s.nVars
  · rw [if_neg (by omega), if_neg (by omega), if_pos h]
    cases e : s.enc <;> simp_all
  · rw [if_neg h]
    split
    · rfl
    · rw [if_pos (by omega)]

theorem tighten_upper : ∀ {rs : List Nat} {s : Inc α}, s.enc ≠ .best → ((tighten newUpper s rs).isSome = true ↔ Down s.cur rs) ∧
    ∀ s', tighten newUpper s rs = some s' → s'.k = s.k ∧ s'.cls = s.cls ++ rs.flatMap (upCls s) ∧ s'.cur = lastBound s.cur rs
  | [], s, _ => ⟨by simp [tighten, Down], fun s' h => by simp [tighten] at h; subst h; simp [lastBound]⟩
  | r :: rs, s, he => by
    rw [tighten, newUpper_eq he]
    by_cases h : r < s.cur
    · rw [if_pos h]
      have ih := tighten_upper (rs := rs) (s := { s with cur := r, cls := s.cls ++ upCls s r }) he
      refine ⟨ih.1.trans ⟨fun h' => ⟨h, h'⟩, fun h' => h'.2⟩, fun s' hs => ?_⟩
      obtain ⟨a, b, c⟩ := ih.2 s' hs
      refine ⟨a, ?_, by rw [c, lastBound_cons]⟩
      rw [b, List.flatMap_cons, List.append_assoc]; rfl
    · rw [if_neg h]
      refine ⟨by simp [Down, h], by simp⟩
theorem tighten_lower : ∀ {rs : List Nat} {s : Inc α}, s.enc ≠ .best → ((tighten newLower s rs).isSome = true ↔ Upw s.nVars s.cur rs) ∧
    ∀ s', tighten newLower s rs = some s' → s'.k = s.k ∧ s'.cls = s.cls ++ rs.flatMap (loCls s) ∧ s'.cur = lastBound s.cur rs
  | [], s, _ => ⟨by simp [tighten, Upw], fun s' h => by simp [tighten] at h; subst h; simp [lastBound]⟩
  | r :: rs, s, he => by
    rw [tighten, newLower_eq he]
    by_cases h : s.cur < r ∧ r ≤ s.nVars
    · rw [if_pos h]
      have ih := tighten_lower (rs := rs) (s := { s with cur := r, cls := s.cls ++ loCls s r }) he
      refine ⟨ih.1.trans ⟨fun h' => ⟨h.1, h.2, h'⟩, fun h' => h'.2.2⟩, fun s' hs => ?_⟩
      obtain ⟨a, b, c⟩ := ih.2 s' hs
      refine ⟨a, ?_, by rw [c, lastBound_cons]⟩
      rw [b, List.flatMap_cons, List.append_assoc]; rfl
    · rw [if_neg h]
      refine ⟨by simp [Upw]; intro a b; exact absurd ⟨a, b⟩ h, by simp⟩

theorem down_le : ∀ {rs : List Nat} {b : Nat}, Down b rs → ∀ r ∈ rs, r ≤ b
  | [], _, _ => by simp
  | r :: rs, b, h => by
    intro x hx
    have := h.1
    rcases List.mem_cons.1 hx with rfl | hx
    · omega
    · have := down_le h.2 x hx; omega
theorem upw_le {n : Nat} : ∀ {rs : List Nat} {b : Nat}, Upw n b rs → ∀ r ∈ rs, b ≤ r ∧ r ≤ n
  | [], _, _ => by simp
  | r :: rs, b, h => by
    intro x hx
    have h1 := h.1
    have h2 := h.2.1
    rcases List.mem_cons.1 hx with rfl | hx
    · omega
    · have := upw_le h.2.2 x hx; omega

theorem amkInc_tight {cfg : CCCfg} {k rhs : Nat} {vars : List (Lit (EV α))} {s : Inc α} (ho : ∀ l ∈ vars, Old k l) (h : (amkInc [] cfg k vars rhs).2 = some s) :
    s.enc ≠ .best ∧ s.cur = rhs ∧ (amkInc [] cfg k vars rhs).1 = (s.cls, s.k) ∧ ∃ core, s.cls = core ++ upCls s rhs ∧ Tight k s.k vars core (upCls s) (· ≤ rhs) (fun r w => cnt w vars ≤ r) := by
  unfold amkInc at h ⊢
  split at h
  · simp at h
  · rename_i h1
    split at h
    · simp at h
    · rename_i h2
      rw [if_neg h1, if_neg h2]
      simp only [Option.some.injEq] at h
      have h0 : 0 < rhs := by omega
      have hn : rhs < vars.length := by omega
      cases he : cfg.amk <;> simp only [he] at h ⊢ <;> subst h
      · exact ⟨by simp [mkInc], rfl, rfl, totalizerAMK_tight h0 hn ho⟩
      · exact ⟨by simp [mkInc], rfl, rfl, modAMK_tight h0 hn ho⟩
      · exact ⟨by simp [mkInc], rfl, rfl, cnAmkInc_tight hn ho⟩
      · exact ⟨by simp [mkInc], rfl, rfl, modAMK_tight h0 hn ho⟩
theorem alkInc_tight {cfg : CCCfg} {k rhs : Nat} {vars : List (Lit (EV α))} {s : Inc α} (ho : ∀ l ∈ vars, Old k l) (h : (alkInc [] cfg k vars rhs).2 = some s) :
    s.enc ≠ .best ∧ s.cur = rhs ∧ s.nVars = vars.length ∧ rhs ≤ vars.length ∧ (alkInc [] cfg k vars rhs).1 = (s.cls, s.k) ∧
    ∃ core, s.cls = core ++ loCls s rhs ∧ Tight k s.k vars core (loCls s) (fun r => rhs ≤ r ∧ r ≤ vars.length) (fun r w => r ≤ cnt w vars) := by
  unfold alkInc at h ⊢
  split at h
  · simp at h
  · rename_i h1
    split at h
    · simp at h
    · rename_i h2
      split at h
      · simp at h
      · rename_i h3
        split at h
        · simp at h
        · rename_i h4
          rw [if_neg h1, if_neg h2, if_neg h3, if_neg h4]
          simp only [Option.some.injEq] at h
          have h0 : 0 < rhs := by omega
          have hn : rhs < vars.length := by omega
          cases he : cfg.alk <;> simp only [he] at h ⊢ <;> subst h
          · obtain ⟨core, hc, T⟩ := totalizerALK_tight (rhs := rhs) (k := k) (vars := vars) (by omega) ho
            exact ⟨by simp [mkInc], rfl, rfl, by omega, rfl, core, hc, T.le, T.vars, T.bvars, fun r hr => T.sound r hr.2, fun v => by
              obtain ⟨w, a, b, c⟩ := T.complete v
              exact ⟨w, a, b, fun r hr => c r hr.2⟩⟩
          · exact ⟨by simp [mkInc], rfl, rfl, by omega, rfl, modALK_tight h0 hn ho⟩
          · exact ⟨by simp [mkInc], rfl, rfl, by omega, rfl, cnAlkInc_tight h0 (by omega) ho⟩
          · exact ⟨by simp [mkInc], rfl, rfl, by omega, rfl, modALK_tight h0 hn ho⟩

/-- **C14 (upper bounds).** After creating an incremental at-most constraint and after any sequence of new bounds: the calls succeed if and only if the
bounds strictly decrease, and then all clauses together encode exactly the last bound. -/
theorem C14_upper {cfg : CCCfg} {k rhs : Nat} {vars : List α} {s : Inc α} (h : (amkInc [] cfg k (usrs vars) rhs).2 = some s) (rs : List Nat) :
    ((tighten newUpper s rs).isSome = true ↔ Down rhs rs) ∧
    ∀ s', tighten newUpper s rs = some s' → Encodes vars k s'.k s'.cls (fun v => vars.countP v ≤ lastBound rhs rs) := by
  obtain ⟨hb, hcur, -, core, hc, T⟩ := amkInc_tight usrs_old h
  have U := tighten_upper (rs := rs) hb
  rw [hcur] at U
  refine ⟨U.1, fun s' hs => ?_⟩
  have hd : Down rhs rs := U.1.1 (by rw [hs]; rfl)
  obtain ⟨hk, hcl, -⟩ := U.2 s' hs
  have E := T.exacts (rs := rhs :: rs) fun r hr => by
    rcases List.mem_cons.1 hr with rfl | hr
    · exact Nat.le_refl _
    · exact down_le hd r hr
  rw [hk, hcl, hc, List.append_assoc]
  rw [List.flatMap_cons] at E
  refine E.encodes fun w => ?_
  rw [down_all (C := fun r => cnt w (usrs vars) ≤ r) (fun a b hab h => by omega) hd, cnt_usrs]

/-- **C14 (lower bounds).** The same for at-least constraints: the calls succeed if and only if the bounds strictly increase up to the number of
variables. -/
theorem C14_lower {cfg : CCCfg} {k rhs : Nat} {vars : List α} {s : Inc α} (h : (alkInc [] cfg k (usrs vars) rhs).2 = some s) (rs : List Nat) :
    ((tighten newLower s rs).isSome = true ↔ Upw vars.length rhs rs) ∧
    ∀ s', tighten newLower s rs = some s' → Encodes vars k s'.k s'.cls (fun v => lastBound rhs rs ≤ vars.countP v) := by
  obtain ⟨hb, hcur, hnv, hle, -, core, hc, T⟩ := alkInc_tight usrs_old h
  have U := tighten_lower (rs := rs) hb
  rw [hcur, hnv, usrs_length] at U
  refine ⟨U.1, fun s' hs => ?_⟩
  have hd : Upw vars.length rhs rs := U.1.1 (by rw [hs]; rfl)
  obtain ⟨hk, hcl, -⟩ := U.2 s' hs
  have E := T.exacts (rs := rhs :: rs) fun r hr => by
    rcases List.mem_cons.1 hr with rfl | hr
    · exact ⟨Nat.le_refl _, hle⟩
    · rw [usrs_length]; exact upw_le hd r hr
  rw [hk, hcl, hc, List.append_assoc]
  rw [List.flatMap_cons] at E
  refine E.encodes fun w => ?_
  rw [upw_all (C := fun r => r ≤ cnt w (usrs vars)) (fun a b hab h => by omega) hd, cnt_usrs]

/-- **C14 (errors).** An error is returned exactly for the trivial constraints; the clauses added before an error still encode the constraint. -/
theorem C14_trivial {cfg : CCCfg} {k rhs : Nat} {vars : List α} :
    ((amkInc [] cfg k (usrs vars) rhs).2 = none ↔ vars.length ≤ rhs ∨ rhs = 0) ∧
    Encodes vars k (amkInc [] cfg k (usrs vars) rhs).1.2 (amkInc [] cfg k (usrs vars) rhs).1.1 (fun v => vars.countP v ≤ rhs) ∧
    ((alkInc [] cfg k (usrs vars) rhs).2 = none ↔ vars.length ≤ rhs ∨ rhs ≤ 1) ∧
    Encodes vars k (alkInc [] cfg k (usrs vars) rhs).1.2 (alkInc [] cfg k (usrs vars) rhs).1.1 (fun v => rhs ≤ vars.countP v) := by
  refine ⟨?_, ?_, ?_, ?_⟩
  · unfold amkInc
    rw [usrs_length]
    split
    · simp; omega
    · split
      · simp; omega
      · simp; omega
  · have : Exact k (amkInc [] cfg k (usrs vars) rhs).1.2 (usrs vars) (amkInc [] cfg k (usrs vars) rhs).1.1 (fun w => cnt w (usrs vars) ≤ rhs) := by
      cases h : (amkInc [] cfg k (usrs vars) rhs).2 with
      | some s =>
        obtain ⟨-, -, e, core, hc, T⟩ := amkInc_tight usrs_old h
        rw [e]
        have := T.exact (r := rhs) (Nat.le_refl _)
        rwa [← hc] at this
      | none =>
        unfold amkInc at h ⊢
        split at h
        · rename_i h1
          rw [if_pos h1]
          exact none_exact fun w => Nat.le_trans (cnt_le w _) h1
        · rename_i h1
          rw [if_neg h1]
          split at h
          · rename_i h2
            rw [if_pos h2]
            subst rhs
            exact negUnits_exact.congr (fun l hl => ⟨l, hl, rfl⟩) fun w => by omega
          · simp at h
    exact this.encodes fun w => by rw [cnt_usrs]
  · unfold alkInc
    rw [usrs_length]
    split
    · simp; omega
    · split
      · simp; omega
      · split
        · simp; omega
        · split
          · simp; omega
          · simp; omega
  · have : Exact k (alkInc [] cfg k (usrs vars) rhs).1.2 (usrs vars) (alkInc [] cfg k (usrs vars) rhs).1.1 (fun w => rhs ≤ cnt w (usrs vars)) := by
      cases h : (alkInc [] cfg k (usrs vars) rhs).2 with
      | some s =>
        obtain ⟨-, -, -, hle, e, core, hc, T⟩ := alkInc_tight usrs_old h
        rw [e]
        have := T.exact (r := rhs) ⟨Nat.le_refl _, hle⟩
        rwa [← hc] at this
      | none =>
        unfold alkInc at h ⊢
        split at h
        · rename_i h1
          rw [if_pos h1]
          exact false_exact fun w => by have := cnt_le w (usrs vars); omega
        · rename_i h1
          rw [if_neg h1]
          split at h
          · rename_i h2
            rw [if_pos h2]
            exact none_exact fun w => by omega
          · rename_i h2
            rw [if_neg h2]
            split at h
            · rename_i h3
              rw [if_pos h3]; subst rhs
              exact some_exact
            · rename_i h3
              rw [if_neg h3]
              split at h
              · rename_i h4
                rw [if_pos h4]; subst rhs
                exact units_exact
              · simp at h
    exact this.encodes fun w => by rw [cnt_usrs]

/-! concrete cases: bounds 4, then 3 and 1 on six variables, with every encoder -/
example : ((amkInc [] (ccOf .modular) 0 (usrs [0, 1, 2, 3, 4, 5]) 4).2.bind (tighten newUpper · [3, 1])).isSome := by decide +kernel
example : ((amkInc [] (ccOf .network) 0 (usrs [0, 1, 2, 3, 4, 5]) 4).2.bind (tighten newUpper · [3, 1])).isSome := by decide +kernel
example : ((alkInc [] (ccOf .totalizer) 0 (usrs [0, 1, 2, 3, 4, 5]) 2).2.bind (tighten newLower · [3, 6])).isSome := by decide +kernel

end Verif.Enc
