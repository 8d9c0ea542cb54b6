import Verif.Opt.Model
import Mathlib.Data.List.Basic
/-!
# C48: `Maximize` and `Minimize` find an optimum
-/
namespace Verif.Opt
open Verif Verif.Tree
variable {α : Type}

/-! ## specification -/

/-- the assignment satisfies all formulas -/
def Holds (v : α → Bool) (fs : List (Fm α)) : Prop := ∀ f ∈ fs, f.eval v = true

/-- the calls of the solver answer rightly, unless cancelled (C18) -/
def SatOracle.Ok (call : SatOracle α) : Prop :=
  ∀ n fs, (call n fs = some none → ¬ ∃ v, Holds v fs) ∧ ∀ v, call n fs = some (some v) → Holds v fs

/-- the number of literals that are true -/
def numTrue (v : α → Bool) (ls : List (Lit α)) : Nat := (ls.filter fun l => l.eval v).length

/-- the selector variables are new -/
structure Fresh (sel : Nat → α) (content : List (Fm α)) (lits : List (Lit α)) : Prop where
  inj : ∀ i j, sel i = sel j → i = j
  content : ∀ f ∈ content, ∀ i, sel i ∉ f.vars
  lits : ∀ l ∈ lits, ∀ i, l.var ≠ sel i

/-- `v` is a model with the most (`max`) or the fewest literals true -/
def Optimal (max : Bool) (content : List (Fm α)) (lits : List (Lit α)) (v : α → Bool) : Prop :=
  Holds v content ∧ ∀ w, Holds w content → if max then numTrue w lits ≤ numTrue v lits else numTrue v lits ≤ numTrue w lits

/-! ## lemmas -/

/-- the number of literals counted by the selectors -/
def score (max : Bool) (v : α → Bool) (ls : List (Lit α)) : Nat := (ls.filter fun l => l.eval v == max).length

theorem score_true (v : α → Bool) (ls : List (Lit α)) : score true v ls = numTrue v ls := by
  simp [score, numTrue]

theorem score_false (v : α → Bool) (ls : List (Lit α)) : score false v ls + numTrue v ls = ls.length := by
  induction ls with
  | nil => rfl
  | cons l ls ih =>
    simp only [score, numTrue, List.filter_cons, List.length_cons] at ih ⊢
    cases l.eval v <;> simp at ih ⊢ <;> omega

theorem selClauses_eval (max : Bool) (sel : Nat → α) (i : Nat) (l : Lit α) (v : α → Bool) :
    Holds v (selClauses max sel i l) ↔ v (sel i) = (l.eval v == max) := by
  unfold Holds selClauses
  cases max <;> simp [Lit.eval, Lit.neg] <;> cases l.pos <;> cases v (sel i) <;> cases v l.var <;> simp

theorem holds_append (v : α → Bool) (fs gs : List (Fm α)) : Holds v (fs ++ gs) ↔ Holds v fs ∧ Holds v gs := by
  simp [Holds, or_imp, forall_and]

theorem allSelClauses_eval (max : Bool) (sel : Nat → α) (v : α → Bool) : ∀ (ls : List (Lit α)) (n : Nat),
    Holds v (allSelClauses max sel n ls) ↔ ∀ (i : Nat) l, ls[i]? = some l → v (sel (n + i)) = (l.eval v == max)
  | [], n => by simp [allSelClauses, Holds]
  | l :: ls, n => by
    rw [allSelClauses, holds_append, selClauses_eval, allSelClauses_eval max sel v ls (n + 1)]
    constructor
    · rintro ⟨h1, h2⟩ i
      cases i with
      | zero => intro l' h; simp at h; subst h; simpa using h1
      | succ i =>
        intro l' h
        have := h2 i l' (by simpa using h)
        rw [← this]; congr 2; omega
    · intro h
      refine ⟨by simpa using h 0 l rfl, fun i l' hl => ?_⟩
      have := h (i + 1) l' (by simpa using hl)
      rw [← this]; congr 2; omega

theorem bound_eq (max : Bool) (sel : Nat → α) (v : α → Bool) : ∀ (ls : List (Lit α)) (n : Nat),
    (∀ (i : Nat) l, ls[i]? = some l → v (sel (n + i)) = (l.eval v == max)) →
    bound v ((List.range' n ls.length).map sel) = score max v ls
  | [], n, _ => rfl
  | l :: ls, n, h => by
    have ih := bound_eq max sel v ls (n + 1) (fun i l' hl => by
      have := h (i + 1) l' (by simpa using hl)
      rw [← this]; congr 2; omega)
    have h0 := h 0 l rfl
    simp only [bound, score, List.length_cons, List.range'_succ, List.map_cons, List.filter_cons] at ih ⊢
    rw [Nat.add_zero] at h0
    rw [h0]
    split <;> simp [ih]

theorem cntTrue_eq (v : α → Bool) (ss : List α) : cntTrue v ss = (bound v ss : Int) := by
  induction ss with
  | nil => rfl
  | cons x ss ih =>
    simp only [cntTrue, bound, List.filter_cons] at ih ⊢
    split <;> simp [ih]
    omega

theorem bound_sels {max : Bool} {sel : Nat → α} {v : α → Bool} {ls : List (Lit α)} (h : Holds v (allSelClauses max sel 0 ls)) :
    bound v (sels sel ls.length) = score max v ls := by
  have := bound_eq max sel v ls 0 (by simpa using (allSelClauses_eval max sel v ls 0).1 h)
  rw [sels, List.range_eq_range']
  exact this

/-- every model of the content extends to the selectors -/
theorem extend {sel : Nat → α} {content : List (Fm α)} {lits : List (Lit α)} (hf : Fresh sel content lits) (max : Bool) (w : α → Bool)
    (hw : Holds w content) : ∃ w', Holds w' (content ++ allSelClauses max sel 0 lits) ∧ score max w' lits = score max w lits := by
  classical
  let w' : α → Bool := fun x => if h : ∃ i, x = sel i then ((lits[h.choose]?).map fun l => l.eval w == max).getD false else w x
  have h1 : ∀ x, (∀ i, x ≠ sel i) → w' x = w x := fun x hx => dif_neg (by rintro ⟨i, hi⟩; exact hx i hi)
  have h2 : ∀ i l, lits[i]? = some l → w' (sel i) = (l.eval w == max) := by
    intro i l hl
    have hex : ∃ j, sel i = sel j := ⟨i, rfl⟩
    have : hex.choose = i := (hf.inj _ _ hex.choose_spec).symm
    simp only [w', dif_pos hex, this, hl, Option.map_some, Option.getD_some]
  have h3 : ∀ l ∈ lits, l.eval w' = l.eval w := by
    intro l hl
    simp only [Lit.eval, h1 l.var (hf.lits l hl)]
  refine ⟨w', ?_, ?_⟩
  · rw [holds_append, allSelClauses_eval]
    refine ⟨fun f hfc => ?_, fun i l hl => ?_⟩
    · rw [← hw f hfc]
      exact Fm.eval_congr f fun x hx => h1 x fun i hi => hf.content f hfc i (hi ▸ hx)
    · rw [Nat.zero_add, h2 i l hl, h3 l (List.mem_of_getElem? hl)]
  · simp only [score]
    congr 1
    exact List.filter_congr fun l hl => by rw [h3 l hl]

theorem scoreLe_of_unsat {sel : Nat → α} {content : List (Fm α)} {lits : List (Lit α)} (hf : Fresh sel content lits) {max : Bool}
    {fs : List (Fm α)} {b : Nat}
    (hfs : ∀ v, Holds v (content ++ allSelClauses max sel 0 lits) → b ≤ score max v lits → Holds v fs)
    (hu : ¬ ∃ v, Holds v fs) (w : α → Bool) (hw : Holds w content) : score max w lits < b := by
  obtain ⟨w', h1, h2⟩ := extend hf max w hw
  by_contra h
  exact hu ⟨w', hfs w' h1 (by omega)⟩

theorem holds_cc (v : α → Bool) (k : Nat) (ss : List α) : Holds v [tCC .ge (Int.ofNat k) ss] ↔ k ≤ bound v ss := by
  simp [Holds, Cmp.holds, cntTrue_eq]

/-- the result of the loop -/
theorem improve_spec {call : SatOracle α} (hc : call.Ok) (resume : Nat → Bool) {sel : Nat → α} {content : List (Fm α)} {lits : List (Lit α)}
    (hf : Fresh sel content lits) (max : Bool) :
    ∀ (k n : Nat) (fs : List (Fm α)) (v : α → Bool) (b : Nat), lits.length < k + b →
      (∀ v, Holds v fs → Holds v (content ++ allSelClauses max sel 0 lits)) →
      (∀ v, Holds v (content ++ allSelClauses max sel 0 lits) → b ≤ score max v lits → Holds v fs) →
      Holds v content → score max v lits = b →
      match improve call resume (sels sel lits.length) k n fs v b with
      | .done m => ∃ v, m = some v ∧ Holds v content ∧ ∀ w, Holds w content → score max w lits ≤ score max v lits
      | .canceled m => ∃ v, m = some v ∧ Holds v content
      | .fuel => False
  | 0, n, fs, v, b, hk, h1, h2, hv, hb => by
    have : score max v lits ≤ lits.length := List.length_filter_le _ _
    omega
  | k + 1, n, fs, v, b, hk, h1, h2, hv, hb => by
    rw [improve]
    cases hcall : call n (fs ++ [tCC .ge (Int.ofNat (b + 1)) (sels sel lits.length)]) with
    | none => exact ⟨v, rfl, hv⟩
    | some r =>
      cases r with
      | none =>
        refine ⟨v, rfl, hv, fun w hw => ?_⟩
        have := scoreLe_of_unsat hf (b := b + 1) (fun u hu hs => by
          rw [holds_append, holds_cc, bound_sels ((holds_append _ _ _).1 hu).2]
          exact ⟨h2 u hu (by omega), hs⟩) ((hc n _).1 hcall) w hw
        omega
      | some v' =>
        have h3 := (hc n _).2 v' hcall
        rw [holds_append, holds_cc] at h3
        have h4 := (holds_append _ _ _).1 (h1 v' h3.1)
        have h5 := bound_sels h4.2
        dsimp only
        cases resume n with
        | false => exact ⟨v', rfl, h4.1⟩
        | true =>
          simp only [if_true]
          by_cases hl : bound v' (sels sel lits.length) = (sels sel lits.length).length
          · rw [if_pos hl]
            refine ⟨v', rfl, h4.1, fun w hw => ?_⟩
            have : score max w lits ≤ lits.length := List.length_filter_le _ _
            simp only [sels, List.length_map, List.length_range] at hl h5
            omega
          · rw [if_neg hl]
            refine improve_spec hc resume hf max k (n + 1) _ v' _ (by omega) ?_ ?_ h4.1 h5.symm
            · exact fun u hu => h1 u ((holds_append _ _ _).1 hu).1
            · intro u hu hs
              rw [holds_append, holds_cc, bound_sels ((holds_append _ _ _).1 hu).2]
              exact ⟨h2 u hu (by omega), by omega⟩

theorem maximize_spec {call : SatOracle α} (hc : call.Ok) (resume : Nat → Bool) (start : Bool) {sel : Nat → α} {content : List (Fm α)}
    {lits : List (Lit α)} (hf : Fresh sel content lits) (n : Nat) (max : Bool) :
    match maximize call resume start sel n max content lits with
    | .done none => ¬ ∃ v, Holds v content
    | .done (some v) => Holds v content ∧ ∀ w, Holds w content → score max w lits ≤ score max v lits
    | .canceled m => ∀ v, m = some v → Holds v content
    | .fuel => False := by
  unfold maximize
  cases start with
  | false => simp
  | true =>
    simp only [if_true]
    cases hcall : call n (content ++ allSelClauses max sel 0 lits) with
    | none => simp
    | some r =>
      cases r with
      | none =>
        dsimp only
        rintro ⟨w, hw⟩
        obtain ⟨w', h, _⟩ := extend hf max w hw
        exact (hc n _).1 hcall ⟨w', h⟩
      | some v =>
        have h3 := (hc n _).2 v hcall
        have h4 := (holds_append _ _ _).1 h3
        have h5 := bound_sels h4.2
        dsimp only
        by_cases h0 : bound v (sels sel lits.length) = 0
        · rw [if_pos h0]
          cases hcall2 : call (n + 1) (content ++ allSelClauses max sel 0 lits ++ [tCC .ge 1 (sels sel lits.length)]) with
          | none => intro u hu; cases hu; exact h4.1
          | some r =>
            cases r with
            | none =>
              refine ⟨h4.1, fun w hw => ?_⟩
              have := scoreLe_of_unsat hf (b := 1) (fun u hu hs => by
                rw [holds_append]
                refine ⟨hu, ?_⟩
                have := (holds_cc u 1 (sels sel lits.length)).2 (by rw [bound_sels ((holds_append _ _ _).1 hu).2]; exact hs)
                exact this) ((hc (n + 1) _).1 hcall2) w hw
              omega
            | some v' =>
              have h6 := (hc (n + 1) _).2 v' hcall2
              rw [holds_append] at h6
              have h7 := (holds_append _ _ _).1 h6.1
              have h8 := bound_sels h7.2
              have h9 : 1 ≤ bound v' (sels sel lits.length) := (holds_cc v' 1 _).1 h6.2
              dsimp only
              have := improve_spec hc resume hf max (lits.length + 1) (n + 2) (content ++ allSelClauses max sel 0 lits ++ [tCC .ge 1 (sels sel lits.length)]) v' (bound v' (sels sel lits.length)) (by omega)
                (fun u hu => ((holds_append _ _ _).1 hu).1) (fun u hu hs => by
                  rw [holds_append]
                  exact ⟨hu, (holds_cc u 1 _).2 (by rw [bound_sels ((holds_append _ _ _).1 hu).2]; omega)⟩) h7.1 h8.symm
              revert this
              cases improve call resume (sels sel lits.length) (lits.length + 1) (n + 2)
                (content ++ allSelClauses max sel 0 lits ++ [tCC .ge 1 (sels sel lits.length)]) v' (bound v' (sels sel lits.length)) with
              | done m => rintro ⟨u, rfl, h⟩; exact h
              | canceled m => rintro ⟨u, rfl, h⟩ x hx; cases hx; exact h
              | fuel => exact id
        · rw [if_neg h0]
          by_cases hl : bound v (sels sel lits.length) = (sels sel lits.length).length
          · rw [if_pos hl]
            refine ⟨h4.1, fun w hw => ?_⟩
            have : score max w lits ≤ lits.length := List.length_filter_le _ _
            simp only [sels, List.length_map, List.length_range] at hl h5
            omega
          · rw [if_neg hl]
            have := improve_spec hc resume hf max (lits.length + 1) (n + 1) (content ++ allSelClauses max sel 0 lits) v (bound v (sels sel lits.length)) (by omega)
              (fun u hu => hu) (fun u hu hs => hu) h4.1 h5.symm
            revert this
            cases improve call resume (sels sel lits.length) (lits.length + 1) (n + 1)
                (content ++ allSelClauses max sel 0 lits) v (bound v (sels sel lits.length)) with
            | done m => rintro ⟨u, rfl, h⟩; exact h
            | canceled m => rintro ⟨u, rfl, h⟩ x hx; cases hx; exact h
            | fuel => exact id

/-! ## C48 -/

/-- **C48**: for every solver content, every list of literals (also with repetitions) and every handler: without cancellation the optimization ends with no
model iff the formulas on the solver are unsatisfiable, and otherwise with an internal model in which as many (`Maximize`) or as few (`Minimize`) literals as
possible are true.  A model that comes with a cancellation is a model of the formulas. -/
theorem C48_optimum {call : SatOracle α} (hc : call.Ok) (resume : Nat → Bool) (start : Bool) {sel : Nat → α} {content : List (Fm α)}
    {lits : List (Lit α)} (hf : Fresh sel content lits) (n : Nat) (max : Bool) :
    match maximize call resume start sel n max content lits with
    | .done none => ¬ ∃ v, Holds v content
    | .done (some v) => Optimal max content lits v
    | .canceled (some v) => Holds v content
    | .canceled none => True
    | .fuel => False := by
  have := maximize_spec hc resume start hf n max
  revert this
  cases maximize call resume start sel n max content lits with
  | done m =>
    cases m with
    | none => exact id
    | some v =>
      rintro ⟨h1, h2⟩
      refine ⟨h1, fun w hw => ?_⟩
      have := h2 w hw
      cases max with
      | true => simpa [score_true] using this
      | false =>
        have h3 := score_false v lits
        have h4 := score_false w lits
        simp only [Bool.false_eq_true, if_false]
        omega
  | canceled m =>
    cases m with
    | none => exact fun _ => trivial
    | some v => exact fun h => h v rfl
  | fuel => exact id

/-- **C48**: the returned model agrees with the internal model and holds every literal variable the solver knew beforehand. -/
theorem C48_result_model [DecidableEq α] (ord : List α → List α) (ho : ∀ l, (ord l).Perm l) (content : List (Fm α)) (lits : List (Lit α)) (additional : List α)
    (v : α → Bool) (l : Lit α) :
    l ∈ resultModel ord content lits additional v ↔
      (l.var ∈ additional ∨ ∃ l' ∈ lits, l'.var = l.var) ∧ (∃ f ∈ content, l.var ∈ f.vars) ∧ l.eval v = true := by
  have he : l.eval v = true ↔ l.pos = v l.var := by
    unfold Lit.eval
    cases l.pos <;> cases v l.var <;> simp
  simp only [resultModel, List.mem_map, List.mem_filter, (ho _).mem_iff, List.mem_eraseDups, List.mem_append, known, List.any_eq_true, decide_eq_true_eq, he]
  constructor
  · rintro ⟨x, ⟨h1, h2⟩, rfl⟩
    exact ⟨h1, h2, rfl⟩
  · rintro ⟨h1, h2, h3⟩
    exact ⟨l.var, ⟨h1, h2⟩, by cases l; simp_all⟩

/-- The returned model is *not* always a witness of the optimum: a literal whose variable is unknown to the solver is counted but missing in the result.
On an empty solver `Maximize(a)` returns the empty model, in which `a` is not true. -/
theorem C48_unknown_false (v : Bool → Bool) :
    Optimal true ([] : List (Fm Bool)) [⟨true, true⟩] (fun _ => true) ∧
    numTrue (fun _ => true) [(⟨true, true⟩ : Lit Bool)] = 1 ∧ resultModel id ([] : List (Fm Bool)) [⟨true, true⟩] [] v = [] := by
  refine ⟨⟨by simp [Holds], fun w _ => ?_⟩, by decide, by simp [resultModel, known]⟩
  simp only [if_true]
  calc numTrue w [⟨true, true⟩] ≤ 1 := by simpa [numTrue] using List.length_filter_le (fun l : Lit Bool => l.eval w) [⟨true, true⟩]
    _ = _ := by decide

/-! ### a case meeting the hypotheses: `x0 ∨ x1` with the negated literals counted -/
section Example
private def exC : List (Fm Nat) := [.or [.lit ⟨0, true⟩, .lit ⟨1, true⟩]]
private def exL : List (Lit Nat) := [⟨0, true⟩, ⟨1, true⟩]
example : Fresh (fun i => 10 + i) exC exL :=
  ⟨fun i j h => by simp at h; exact h, by simp [exC, Fm.vars, Fm.varsL]; omega, by simp [exL]; constructor <;> omega⟩

/-- an oracle for five variables `0, 1, 10, 11` by truth tables -/
private def vals : List (Nat → Bool) :=
  (List.range 16).map fun m x => if x = 0 then m % 2 = 1 else if x = 1 then m / 2 % 2 = 1 else if x = 10 then m / 4 % 2 = 1 else if x = 11 then m / 8 % 2 = 1 else false
private def tt : SatOracle Nat := fun _ fs => some (vals.find? fun v => fs.all (·.eval v))
private def showRes : OptRes Nat → Option (Option (Bool × Bool))
  | .done (some v) => some (some (v 0, v 1))
  | .done none => some none
  | _ => none
example : showRes (maximize tt (fun _ => true) true (fun i => 10 + i) 0 true exC exL) = some (some (true, true)) := by decide +kernel
example : showRes (maximize tt (fun _ => true) true (fun i => 10 + i) 0 false exC exL) = some (some (false, true)) := by decide +kernel
end Example

end Verif.Opt
