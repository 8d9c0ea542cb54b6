import Verif.Parser.Parse
import Verif.Factory.Refine
/-! # The listener on the parse tree of a printed formula -/
namespace Verif.Parser
open Verif Verif.Tree

/-! ## texts back to data -/

theorem atoi_intTxt (z : Int) : atoi (intTxt z) = z := by
  unfold intTxt
  split
  · simp only [atoi, Nat.ofDigitChars_toDigits (b := 10) (by omega) (by omega)]
    omega
  · have h : ∀ cs : List Char, (∀ c ∈ cs, c.isDigit) → atoi cs = (Nat.ofDigitChars 10 cs 0 : Nat) := by
      intro cs hcs
      unfold atoi
      split
      · rename_i c; exact absurd (hcs '-' (by simp)) (by decide)
      · rfl
    rw [h _ (fun c hc => Nat.isDigit_of_mem_toDigits (by omega) (by omega) hc), Nat.ofDigitChars_toDigits (b := 10) (by omega) (by omega)]
    omega

theorem parseLiteral_litTxt {l : Lit String} (h : isName l.var = true) : parseLiteral (litTxt l) = l := by
  obtain ⟨x, p⟩ := l
  unfold litTxt
  cases p with
  | false =>
    show (⟨String.ofList x.toList, false⟩ : Lit String) = _
    rw [String.ofList_toList]
  | true =>
    simp only [if_true, List.nil_append]
    unfold parseLiteral
    split
    · rename_i cs e
      simp only [isName, e, Bool.and_eq_true] at h
      exact absurd h.1 (by decide)
    · rw [String.ofList_toList]

theorem exitMul_term {t : Int × Lit String} (h : termOk t = true) : exitMul (termMul t) = some t := by
  simp only [termOk, Bool.and_eq_true] at h
  obtain ⟨k, l⟩ := t
  unfold termMul
  split
  · simp only [exitMul, atoi_intTxt, parseLiteral_litTxt h.1]
  · rename_i e
    simp only [exitMul, parseLiteral_litTxt h.1]
    simp only [ne_eq, Decidable.not_not] at e
    rw [e]

theorem exitMul_terms : ∀ {ts : List (Int × Lit String)}, (∀ t ∈ ts, termOk t = true) → (ts.map termMul).mapM exitMul = some ts
  | [], _ => rfl
  | t :: ts, h => by
    rw [List.map_cons, List.mapM_cons, exitMul_term (h t (by simp)), exitMul_terms (fun u hu => h u (List.mem_cons_of_mem _ hu))]
    rfl

/-! ## the stack -/

theorem popOps_rev (st : Stack) : ∀ (gs acc : List (Fm String)), popOps (gs.reverse.map some ++ none :: st) acc = some (gs ++ acc, st) := by
  have h : ∀ (rs acc : List (Fm String)), popOps (rs.map some ++ none :: st) acc = some (rs.reverse ++ acc, st) := by
    intro rs
    induction rs with
    | nil => intro acc; rfl
    | cons g rs ih => intro acc; simp [popOps, ih]
  intro gs acc
  rw [h, List.reverse_reverse]

mutual
/-- the formula built anew with the constructors of the factory, bottom-up -/
def rebuild (cons : Bool) : Fm String → Fm String
  | .fls => .fls
  | .tru => .tru
  | .lit l => .lit l
  | .not f => tNot (rebuild cons f)
  | .impl l r => tImpl cons (rebuild cons l) (rebuild cons r)
  | .equiv l r => tEquiv cons (rebuild cons l) (rebuild cons r)
  | .and fs => tAnd cons (rebuildL cons fs)
  | .or fs => tOr cons (rebuildL cons fs)
  | .cc c k xs => tPBC c k (xs.map fun x => (1, ⟨x, true⟩))
  | .pbc c k ts => tPBC c k ts
def rebuildL (cons : Bool) : List (Fm String) → List (Fm String)
  | [] => []
  | f :: fs => rebuild cons f :: rebuildL cons fs
end

theorem rebuildL_map (cons : Bool) (fs : List (Fm String)) : rebuildL cons fs = fs.map (rebuild cons) := by
  induction fs with
  | nil => rfl
  | cons f fs ih => simp [rebuildL, ih]
theorem rebuild_and (cons : Bool) (fs : List (Fm String)) : rebuild cons (.and fs) = tAnd cons (fs.map (rebuild cons)) := by
  rw [rebuild, rebuildL_map]
theorem rebuild_or (cons : Bool) (fs : List (Fm String)) : rebuild cons (.or fs) = tOr cons (fs.map (rebuild cons)) := by
  rw [rebuild, rebuildL_map]

theorem eval_rebuild (cons : Bool) (v : String → Bool) (f : Fm String) : (rebuild cons f).eval v = f.eval v := by
  induction f using Fm.ind with
  | hf => simp only [rebuild]
  | ht => simp only [rebuild]
  | hl l => simp only [rebuild]
  | hn f ih => simp [rebuild, ih]
  | ha fs ih =>
    simp only [rebuild_and, eval_tAnd, Fm.eval_and, List.all_map]
    rw [Bool.eq_iff_iff, List.all_eq_true, List.all_eq_true]
    exact forall₂_congr fun g hg => by rw [Function.comp_apply, ih g hg]
  | ho fs ih =>
    simp only [rebuild_or, eval_tOr, Fm.eval_or, List.any_map]
    rw [Bool.eq_iff_iff, List.any_eq_true, List.any_eq_true]
    exact exists_congr fun g => and_congr_right fun hg => by rw [Function.comp_apply, ih g hg]
  | hi l r ihl ihr => simp [rebuild, ihl, ihr]
  | he l r ihl ihr => simp [rebuild, ihl, ihr]
  | hc c k xs =>
    have h := linSum_cnt v (ts := xs.map fun x => (1, ⟨x, true⟩)) (by simp) (by simp)
    simp only [rebuild, eval_tPBC, Fm.eval_cc]
    rw [h, List.map_map]
    simp [Function.comp_def]
  | hp c k ts => simp [rebuild]

theorem walk_brPT (cons : Bool) (b : Bool) (t : PT) (st : Stack) : walk cons (brPT b t) st = walk cons t st := by
  cases b
  · rfl
  · simp only [brPT, if_true, walk]

theorem walkL_toPTs (cons : Bool) (r : Nat) : ∀ (fs : List (Fm String)), (∀ f ∈ fs, ∀ st, walk cons (toPT f) st = some (some (rebuild cons f) :: st)) → ∀ st,
    walkL cons (toPTs r fs) st = some ((fs.map (rebuild cons)).reverse.map some ++ st)
  | [], _, _ => rfl
  | f :: fs, h, st => by
    simp only [toPTs, walkL, walk_brPT, h f (by simp)]
    rw [walkL_toPTs cons r fs (fun g hg => h g (List.mem_cons_of_mem _ hg))]
    simp

theorem walk_toPT (cons : Bool) (f : Fm String) : printable f = true → ∀ st, walk cons (toPT f) st = some (some (rebuild cons f) :: st) := by
  induction f using Fm.ind with
  | hf => intro _ st; simp [toPT, walk, rebuild]
  | ht => intro _ st; simp [toPT, walk, rebuild]
  | hl l =>
    intro h st
    simp only [printable] at h
    simp [toPT, walk, rebuild, parseLiteral_litTxt h]
  | hn f ih =>
    intro h st
    simp only [printable] at h
    simp [toPT, walk, rebuild, ih h]
  | ha fs ih =>
    intro h st
    simp only [printable, Bool.and_eq_true, printableL_iff] at h
    simp only [toPT, walk, walkL_toPTs cons 4 fs (fun f hf st => ih f hf (h.1.2 f hf) st), popOps_rev, rebuild_and, List.append_nil]
  | ho fs ih =>
    intro h st
    simp only [printable, Bool.and_eq_true, printableL_iff] at h
    simp only [toPT, walk, walkL_toPTs cons 5 fs (fun f hf st => ih f hf (h.1.2 f hf) st), popOps_rev, rebuild_or, List.append_nil]
  | hi l r ihl ihr =>
    intro h st
    simp only [printable, Bool.and_eq_true] at h
    simp [toPT, walk, rebuild, walk_brPT, ihl h.1, ihr h.2]
  | he l r ihl ihr =>
    intro h st
    simp only [printable, Bool.and_eq_true] at h
    simp [toPT, walk, rebuild, walk_brPT, ihl h.1, ihr h.2]
  | hc c k xs =>
    intro h st
    simp only [printable, Bool.and_eq_true, List.all_eq_true] at h
    have := exitMul_terms (ts := xs.map fun x => (1, ⟨x, true⟩)) (by simpa [termOk] using h.2)
    rw [List.map_map] at this
    simp only [toPT, walk, atoi_intTxt, rebuild]
    simp only [Function.comp_def] at this
    rw [this]
  | hp c k ts =>
    intro h st
    simp only [printable, Bool.and_eq_true, List.all_eq_true] at h
    simp only [toPT, walk, atoi_intTxt, rebuild, exitMul_terms h.2]

theorem start_not_space {c : Char} (h : start c = true) : Io.isSpace c = false := by
  have hb : 33 ≤ c.toNat ∧ c.toNat ≤ 122 := by
    simp only [start, part, Char.isAlphanum, Char.isAlpha, Char.isUpper, Char.isLower, Char.isDigit, Bool.or_eq_true, Bool.and_eq_true, decide_eq_true_eq, ge_iff_le, UInt32.le_iff_toNat_le] at h
    rcases h with (((((⟨h1, h2⟩ | ⟨h1, h2⟩) | ⟨h1, h2⟩) | h) | h) | h)
    · simp at h1 h2; omega
    · simp at h1 h2; omega
    · simp at h1 h2; omega
    all_goals subst h; decide
  simp [Io.isSpace]
  omega

/-- a printed formula is not blank -/
theorem sprint_visible {f : Fm String} (h : printable f = true) : ∃ c ∈ sprint f, Io.isSpace c = false := by
  have hl : ∀ l : Lit String, isName l.var = true → ∃ c ∈ litTxt l, Io.isSpace c = false := by
    intro l hl
    unfold isName at hl
    unfold litTxt
    cases e : l.var.toList with
    | nil => simp [e] at hl
    | cons c cs =>
      simp only [e, Bool.and_eq_true] at hl
      exact ⟨c, by simp, start_not_space hl.1⟩
  have hc : ∀ c : Cmp, ∃ x ∈ cmpTxt c, Io.isSpace x = false := by
    intro c
    cases c
    · exact ⟨'=', by decide, by decide⟩
    · exact ⟨'<', by decide, by decide⟩
    · exact ⟨'<', by decide, by decide⟩
    · exact ⟨'>', by decide, by decide⟩
    · exact ⟨'>', by decide, by decide⟩
  cases f with
  | fls => exact ⟨'$', by simp [sprint], by decide⟩
  | tru => exact ⟨'$', by simp [sprint], by decide⟩
  | lit l => simp only [printable] at h; simp only [sprint]; exact hl l h
  | not f => exact ⟨'~', by simp [sprint], by decide⟩
  | impl l r => exact ⟨'=', by simp [sprint], by decide⟩
  | equiv l r => exact ⟨'=', by simp [sprint], by decide⟩
  | and fs =>
    simp only [printable, Bool.and_eq_true, decide_eq_true_eq] at h
    match fs, h.1.1 with
    | f :: g :: fs, _ => exact ⟨'&', by simp [sprint, sprintN], by decide⟩
  | or fs =>
    simp only [printable, Bool.and_eq_true, decide_eq_true_eq] at h
    match fs, h.1.1 with
    | f :: g :: fs, _ => exact ⟨'|', by simp [sprint, sprintN], by decide⟩
  | cc c k xs => obtain ⟨x, h1, h2⟩ := hc c; exact ⟨x, by simp [sprint, h1], h2⟩
  | pbc c k ts => obtain ⟨x, h1, h2⟩ := hc c; exact ⟨x, by simp [sprint, h1], h2⟩

/-- parsing a printed formula builds it anew with the constructors of the factory -/
theorem parse_sprint (cons : Bool) {f : Fm String} (h : printable f = true) : parse cons (sprint f) = .ok (rebuild cons f) := by
  have hw : (sprint f).all Io.isSpace = false := by
    obtain ⟨c, h1, h2⟩ := sprint_visible h
    rw [List.all_eq_false]
    exact ⟨c, h1, by simp [h2]⟩
  unfold parse
  rw [hw, lex_sprint h]
  simp [pFormula_toks h, walk_toPT cons f h]

end Verif.Parser
