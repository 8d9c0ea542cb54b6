import Verif.Parser.Props
/-!
# Files of formulas (C66)

Model of /repo/io/formula_writer.go and /repo/io/formula_reader.go on texts, with printer and parser of C33.
-/
namespace Verif.FormulaFile
open Verif Verif.Tree Verif.Parser Verif.Factory
open Verif.Io (dropCR bytes rawLines rawLines_flat)

/-! ## model -/

/-- formula_writer.go:36-53: the formulas that are written, one in a line -/
def parts (split : Bool) : Fm String → List (Fm String)
  | .and fs => if split then fs else [.and fs]
  | f => [f]

/-- formula_writer.go:36-53 `WriteFormulaToWriter` (writing itself does not fail) -/
def write (split : Bool) (f : Fm String) : Txt := ((parts split f).map sprint).flatMap (· ++ ['\n'])

/-- outcome of the reader -/
inductive Out (β : Type) where
  | ok (x : β)
  | error
  | panic
deriving DecidableEq

/-- formula_reader.go:55-62: the loop over the lines; `ParseUnsafe` panics if the parser reports an error. A line of `max` (2^20) or more bytes ends the loop; the error of
the scanner is returned. -/
def readLines (cons : Bool) (max : Nat) : List Txt → Out (List (Fm String))
  | [] => .ok []
  | l :: ls =>
    if max ≤ bytes l then .error
    else match parse cons (dropCR l) with
      | .ok f => match readLines cons max ls with
        | .ok fs => .ok (f :: fs)
        | .error => .error
        | .panic => .panic
      | _ => .panic

/-- formula_reader.go:49-63 `ReadFormulasFile` -/
def readAll (cons : Bool) (max : Nat) (t : Txt) : Out (List (Fm String)) := readLines cons max (rawLines t)

/-- formula_reader.go:38-44 `ReadFormulaFile` -/
def read (cons : Bool) (max : Nat) (t : Txt) : Out (Fm String) := match readAll cons max t with
  | .ok fs => .ok (tAnd cons fs)
  | .error => .error
  | .panic => .panic

/-! ## lemmas -/

/-- no end of a line -/
def Inline (t : Txt) : Prop := ∀ c ∈ t, c ≠ '\n' ∧ c ≠ '\r'

theorem Inline.append {s t : Txt} (hs : Inline s) (ht : Inline t) : Inline (s ++ t) := fun c hc => (List.mem_append.1 hc).elim (hs c) (ht c)
theorem Inline.cons {c : Char} {t : Txt} (hc : c ≠ '\n' ∧ c ≠ '\r') (ht : Inline t) : Inline (c :: t) := fun d hd => by
  rcases List.mem_cons.1 hd with rfl | hd
  · exact hc
  · exact ht d hd
theorem Inline.nil : Inline [] := fun _ h => by cases h

theorem part_inline {c : Char} (h : start c = true) : c ≠ '\n' ∧ c ≠ '\r' := by
  constructor <;> rintro rfl <;> revert h <;> decide

theorem name_inline {x : String} (h : isName x = true) : Inline x.toList := by
  unfold isName at h
  intro c hc
  cases e : x.toList with
  | nil => rw [e] at hc; cases hc
  | cons d ds =>
    rw [e] at h hc
    simp only [Bool.and_eq_true, List.all_eq_true] at h
    rcases List.mem_cons.1 hc with rfl | hc
    · exact part_inline h.1
    · exact part_inline (by unfold start; rw [h.2 c hc]; rfl)

theorem litTxt_inline {l : Lit String} (h : isName l.var = true) : Inline (litTxt l) := by
  unfold litTxt
  refine .append ?_ (name_inline h)
  split
  · exact .nil
  · exact .cons (by decide) .nil

theorem digits_inline (n : Nat) : Inline (Nat.toDigits 10 n) := fun c hc => by
  have hd := Io.decimal_digit (n := n) hc
  exact ⟨Io.digit_ne hd (by decide), Io.digit_ne hd (by decide)⟩

theorem intTxt_inline (z : Int) : Inline (intTxt z) := by
  unfold intTxt
  split
  · exact .cons (by decide) (digits_inline _)
  · exact digits_inline _

theorem cmpTxt_inline (c : Cmp) : Inline (cmpTxt c) := by
  intro d hd
  cases c <;> revert d <;> decide

theorem termTxt_inline {t : Int × Lit String} (h : isName t.2.var = true) : Inline (termTxt t) := by
  unfold termTxt
  split
  · exact (intTxt_inline _).append (.cons (by decide) (litTxt_inline h))
  · exact litTxt_inline h

theorem sumTxt_inline : ∀ {ts : List (Int × Lit String)}, (∀ t ∈ ts, isName t.2.var = true) → Inline (sumTxt ts)
  | [], _ => .nil
  | [t], h => termTxt_inline (h t (by simp))
  | t :: t2 :: ts, h => by
    rw [sumTxt]
    · exact ((termTxt_inline (h t (by simp))).append (by intro c; revert c; decide)).append (sumTxt_inline fun t ht => h t (by simp [ht]))
    · simp

theorem bracketIf_inline (b : Bool) {t : Txt} (h : Inline t) : Inline (bracketIf b t) := by
  unfold bracketIf
  split
  · exact .cons (by decide) (h.append (.cons (by decide) .nil))
  · exact h

theorem sprintN_inline (r : Nat) {sym : Txt} (hs : Inline sym) : ∀ {fs : List (Fm String)}, (∀ f ∈ fs, Inline (sprint f)) → Inline (sprintN r sym fs)
  | [], _ => by rw [sprintN]; exact .nil
  | [f], h => by
    rw [sprintN]
    split
    · exact .nil
    · exact bracketIf_inline _ (h f (by simp))
  | f :: g :: fs, h => by
    rw [sprintN]
    exact ((bracketIf_inline _ (h f (by simp))).append (.cons (by decide) (hs.append (.cons (by decide) .nil)))).append
      (sprintN_inline r hs fun f hf => h f (by simp [hf]))

/-- a printed formula is a single line -/
theorem sprint_inline (f : Fm String) : printable f = true → Inline (sprint f) := by
  induction f using Fm.ind with
  | hf => intro _ c; rw [sprint]; revert c; decide
  | ht => intro _ c; rw [sprint]; revert c; decide
  | hl l => intro h; rw [sprint]; exact litTxt_inline (by simpa only [printable] using h)
  | hn f ih =>
    intro h; rw [sprint]; simp only [printable] at h
    exact .cons (by decide) (.cons (by decide) ((ih h).append (.cons (by decide) .nil)))
  | ha fs ih =>
    intro h; rw [sprint]; simp only [printable, Bool.and_eq_true, printableL_iff] at h
    exact sprintN_inline 4 (by intro c; revert c; decide) fun f hf => ih f hf (h.1.2 f hf)
  | ho fs ih =>
    intro h; rw [sprint]; simp only [printable, Bool.and_eq_true, printableL_iff] at h
    exact sprintN_inline 5 (by intro c; revert c; decide) fun f hf => ih f hf (h.1.2 f hf)
  | hi l r ihl ihr =>
    intro h; rw [sprint]; simp only [printable, Bool.and_eq_true] at h
    exact ((bracketIf_inline _ (ihl h.1)).append (by intro c; revert c; decide)).append (bracketIf_inline _ (ihr h.2))
  | he l r ihl ihr =>
    intro h; rw [sprint]; simp only [printable, Bool.and_eq_true] at h
    exact ((bracketIf_inline _ (ihl h.1)).append (by intro c; revert c; decide)).append (bracketIf_inline _ (ihr h.2))
  | hc c k xs =>
    intro h; rw [sprint]; simp only [printable, Bool.and_eq_true, List.all_eq_true] at h
    refine ((sumTxt_inline fun t ht => ?_).append (cmpTxt_inline c)).append (intTxt_inline k)
    obtain ⟨x, hx, rfl⟩ := List.mem_map.1 ht
    exact (h.2 x hx).1
  | hp c k ts =>
    intro h; rw [sprint]; simp only [printable, Bool.and_eq_true, List.all_eq_true, termOk] at h
    exact ((sumTxt_inline fun t ht => (h.2 t ht).1).append (cmpTxt_inline c)).append (intTxt_inline k)

theorem dropCR_inline {t : Txt} (h : Inline t) : dropCR t = t := by
  unfold dropCR
  rw [if_neg]
  intro e
  exact (h _ (List.mem_of_getLast? e)).2 rfl

theorem readLines_sprint (cons : Bool) {max : Nat} : ∀ {fs : List (Fm String)}, (∀ f ∈ fs, printable f = true) →
    readLines cons max (fs.map sprint) = if ∃ f ∈ fs, max ≤ bytes (sprint f) then .error else .ok (fs.map (rebuild cons))
  | [], _ => by simp [readLines]
  | f :: fs, h => by
    rw [List.map_cons, readLines, dropCR_inline (sprint_inline f (h f (by simp))), parse_sprint cons (h f (by simp)), readLines_sprint cons fun f hf => h f (by simp [hf])]
    by_cases h1 : max ≤ bytes (sprint f)
    · rw [if_pos h1, if_pos ⟨f, by simp, h1⟩]
    · rw [if_neg h1]
      by_cases h2 : ∃ f ∈ fs, max ≤ bytes (sprint f)
      · rw [if_pos h2, if_pos (by obtain ⟨g, hg, h2⟩ := h2; exact ⟨g, by simp [hg], h2⟩)]
      · rw [if_neg h2, if_neg]
        · rfl
        · rintro ⟨g, hg, h3⟩
          rcases List.mem_cons.1 hg with rfl | hg
          · exact h1 h3
          · exact h2 ⟨g, hg, h3⟩

theorem parts_printable {split : Bool} {f : Fm String} (h : printable f = true) : ∀ g ∈ parts split f, printable g = true := by
  intro g hg
  cases f with
  | and fs =>
    simp only [parts] at hg
    split at hg
    · simp only [printable, Bool.and_eq_true, printableL_iff] at h
      exact h.1.2 g hg
    · simp at hg; subst hg; exact h
  | _ => simp only [parts, List.mem_singleton] at hg; subst hg; exact h

theorem parts_eval (split : Bool) (f : Fm String) (v : String → Bool) : ((parts split f).all fun g => g.eval v) = f.eval v := by
  cases f with
  | and fs => simp only [parts]; split <;> simp
  | _ => simp [parts]

theorem readAll_write (cons split : Bool) {max : Nat} {f : Fm String} (h : printable f = true) :
    readAll cons max (write split f) = if ∃ g ∈ parts split f, max ≤ bytes (sprint g) then .error else .ok ((parts split f).map (rebuild cons)) := by
  have hp := parts_printable (split := split) h
  unfold readAll write
  rw [rawLines_flat, readLines_sprint cons hp]
  intro l hl hc
  obtain ⟨g, hg, rfl⟩ := List.mem_map.1 hl
  exact (sprint_inline g (hp g hg) _ hc).1 rfl

/-! ## properties -/

/-- **C66**: a formula that is written and read is equivalent to the formula, one line or its operands on lines of their own; there is an error if and only if a line has
`max` or more bytes. `_partial`: in constraints no variable may be named by a number (C33). -/
theorem C66_equivalent_partial (cons split : Bool) {max : Nat} {f : Fm String} (h : printable f = true) :
    (read cons max (write split f) = .error ↔ ∃ g ∈ parts split f, max ≤ bytes (sprint g)) ∧
    (read cons max (write split f) ≠ .error → ∃ g, read cons max (write split f) = .ok g ∧ ∀ v, g.eval v = f.eval v) := by
  unfold read
  rw [readAll_write cons split h]
  by_cases hl : ∃ g ∈ parts split f, max ≤ bytes (sprint g)
  · rw [if_pos hl]
    exact ⟨⟨fun _ => hl, fun _ => rfl⟩, fun hn => absurd rfl hn⟩
  · rw [if_neg hl]
    refine ⟨⟨(by simp), fun h => absurd h hl⟩, fun _ => ⟨_, rfl, fun v => ?_⟩⟩
    rw [eval_tAnd, List.all_map, ← parts_eval split f v]
    congr 1
    funext g
    exact eval_rebuild cons v g

theorem foldOpt_congr {β γ : Type} {f g : β → γ → Option β} : ∀ {xs : List γ} {b : β}, (∀ b, ∀ x ∈ xs, f b x = g b x) → foldOpt f b xs = foldOpt g b xs
  | [], _, _ => rfl
  | x :: xs, b, h => by
    unfold foldOpt
    rw [h b x (by simp)]
    cases g b x with
    | none => rfl
    | some b' => exact foldOpt_congr fun b y hy => h b y (by simp [hy])

/-- a conjunction with a single operand -/
theorem tAnd_single (cons : Bool) {f : Fm String} (h : ∀ gs, f = .and gs → tAnd cons gs = .and gs ∧ ∀ g ∈ gs, ∀ hs, g ≠ .and hs) : tAnd cons [f] = f := by
  by_cases hf : ∃ gs, f = .and gs
  · obtain ⟨gs, rfl⟩ := hf
    obtain ⟨h1, h2⟩ := h gs rfl
    have e : foldOpt (tStepAnd cons) [] [.and gs] = foldOpt (tStepAnd cons) [] gs := by
      have e1 : foldOpt (tStepAnd cons) [] [.and gs] = foldOpt (tAddAnd cons) [] gs := by
        simp only [foldOpt, tStepAnd]
        cases foldOpt (tAddAnd cons) [] gs <;> rfl
      rw [e1]
      refine foldOpt_congr fun b g hg => ?_
      have := h2 g hg
      cases g <;> first | rfl | exact absurd rfl (this _)
    unfold tAnd at h1 ⊢
    rw [e]
    exact h1
  · unfold tAnd
    have e : foldOpt (tStepAnd cons) [] [f] = tAddAnd cons [] f := by
      simp only [foldOpt]
      have : tStepAnd cons [] f = tAddAnd cons [] f := by cases f <;> first | rfl | exact absurd ⟨_, rfl⟩ hf
      rw [this]
      cases tAddAnd cons [] f <;> rfl
    rw [e]
    unfold tAddAnd
    by_cases h1 : f = .tru
    · rw [if_pos h1, h1]
    · rw [if_neg h1]
      by_cases h2 : f = .fls
      · rw [if_pos (.inl h2), h2]
      · rw [if_neg (by simp [h2])]
        simp

/-- the operands of a conjunction of the factory are no conjunctions -/
theorem den_flat {c : Bool} {s : Fac} (r : PReach c s) {gs : List (Fm String)} {h : H} (d : Den s.nodes (.and gs) h) : ∀ g ∈ gs, ∀ hs, g ≠ .and hs := by
  have i := r.reach.inv
  simp only [Den] at d
  obtain ⟨os, e, d⟩ := d
  have hok := i.core.ok e
  rintro g hg hs rfl
  obtain ⟨o, ho, dO⟩ := d.mem.1 _ hg
  simp only [Den] at dO
  obtain ⟨os, h1, _⟩ := dO
  exact (hok.2 o ho).2.2 (i.core.sort h1).symm

theorem den_parts {c : Bool} {s : Fac} (r : PReach c s) {f : Fm String} {h : H} (d : Den s.nodes f h) (h0 : noLt0 f = true) (split : Bool) :
    ∀ g ∈ parts split f, rebuild c g = g := by
  intro g hg
  have hself : rebuild c f = f := rebuild_den r f d h0
  cases f with
  | and fs =>
    simp only [parts] at hg
    split at hg
    · simp only [Den] at d
      obtain ⟨os, e, d⟩ := d
      simp only [noLt0, noLt0L_iff] at h0
      obtain ⟨o, _, d'⟩ := d.mem.1 g hg
      exact rebuild_den r g d' (h0 g hg)
    · simp only [List.mem_singleton] at hg; subst hg; exact hself
  | _ => simp only [parts, List.mem_singleton] at hg; subst hg; exact hself

/-- a formula of the factory is the conjunction of its parts -/
theorem tAnd_parts {c : Bool} {s : Fac} (r : PReach c s) {f : Fm String} {h : H} (d : Den s.nodes f h) (h0 : noLt0 f = true) (split : Bool) : tAnd c (parts split f) = f := by
  have key : ∀ gs, f = .and gs → tAnd c gs = .and gs ∧ ∀ g ∈ gs, ∀ hs, g ≠ .and hs := by
    rintro gs rfl
    refine ⟨?_, den_flat r d⟩
    have h1 := rebuild_den r _ d h0
    rw [rebuild_and] at h1
    have h2 : gs.map (rebuild c) = gs := map_id_mem fun g hg => den_parts r d h0 true g (by simpa [parts] using hg)
    rwa [h2] at h1
  have hs := tAnd_single c key
  cases f with
  | and gs =>
    simp only [parts]
    split
    · exact (key gs rfl).1
    · exact hs
  | _ => exact hs

/-- **C66**, second half: a formula of the factory is read back as the very same formula; `ReadFormulas` returns it, or its operands in their order.
`_partial`: as for C33 no constraint `… < 0` built as a cardinality constraint. -/
theorem C66_identical_partial {c : Bool} {s : Fac} (r : PReach c s) {f : Fm String} {h : H} (d : Den s.nodes f h) (hn : namesOk f = true) (h0 : noLt0 f = true)
    (split : Bool) {max : Nat} (hl : ∀ g ∈ parts split f, bytes (sprint g) < max) :
    readAll c max (write split f) = .ok (parts split f) ∧ read c max (write split f) = .ok f := by
  have hl' : ¬∃ g ∈ parts split f, max ≤ bytes (sprint g) := by
    rintro ⟨g, hg, h⟩
    have := hl g hg
    omega
  have h1 : readAll c max (write split f) = .ok (parts split f) := by
    rw [readAll_write c split (printable_den r.reach f d hn), if_neg hl', map_id_mem (den_parts r d h0 split)]
  refine ⟨h1, ?_⟩
  unfold read
  rw [h1]
  simp only [tAnd_parts r d h0 split]

theorem le_sum : ∀ {xs : List Nat} {x : Nat}, x ∈ xs → x ≤ xs.sum
  | y :: ys, x, h => by
    rw [List.sum_cons]
    rcases List.mem_cons.1 h with rfl | h
    · omega
    · have := le_sum h
      omega

/-- … so two formulas written to the same text are the same formula, whichever way each of them was written -/
theorem C66_injective_partial {c : Bool} {s : Fac} (r : PReach c s) {f g : Fm String} {h k : H} (df : Den s.nodes f h) (dg : Den s.nodes g k) (hf : namesOk f = true ∧ noLt0 f = true)
    (hg : namesOk g = true ∧ noLt0 g = true) {a b : Bool} (e : write a f = write b g) : f = g := by
  let max := ((parts a f ++ parts b g).map fun x => bytes (sprint x)).sum + 1
  have hm : ∀ x ∈ parts a f ++ parts b g, bytes (sprint x) < max := fun x hx =>
    Nat.lt_succ_of_le (le_sum (List.mem_map.2 ⟨x, hx, rfl⟩))
  have h1 := (C66_identical_partial r df hf.1 hf.2 a (max := max) fun x hx => hm x (by simp [hx])).2
  have h2 := (C66_identical_partial r dg hg.1 hg.2 b (max := max) fun x hx => hm x (by simp [hx])).2
  rw [e, h2] at h1
  cases h1; rfl

/-- lines of any text: every line is parsed by itself, the result is their conjunction -/
theorem C66_lines {cons : Bool} {max : Nat} {t : Txt} {g : Fm String} (h : read cons max t = .ok g) :
    ∃ fs, readAll cons max t = .ok fs ∧ fs.length = (rawLines t).length ∧ (∀ (i : Nat) l, (rawLines t)[i]? = some l → bytes l < max ∧ ∃ f, fs[i]? = some f ∧ parse cons (dropCR l) = .ok f) ∧
      ∀ v, g.eval v = fs.all fun f => f.eval v := by
  have key : ∀ (ls : List Txt) fs, readLines cons max ls = .ok fs → fs.length = ls.length ∧
      ∀ (i : Nat) l, ls[i]? = some l → bytes l < max ∧ ∃ f, fs[i]? = some f ∧ parse cons (dropCR l) = .ok f := by
    intro ls
    induction ls with
    | nil => intro fs h; simp only [readLines, Out.ok.injEq] at h; subst h; simp
    | cons l ls ih =>
      intro fs h
      rw [readLines] at h
      split at h
      · cases h
      · rename_i hl
        split at h
        · rename_i f hf
          split at h
          · rename_i fs' hfs
            simp only [Out.ok.injEq] at h
            subst h
            obtain ⟨h1, h2⟩ := ih fs' hfs
            refine ⟨by simp [h1], fun i l' hi => ?_⟩
            cases i with
            | zero => simp only [List.getElem?_cons_zero, Option.some.injEq] at hi; subst hi; exact ⟨by omega, f, by simp, hf⟩
            | succ i => simpa using h2 i l' (by simpa using hi)
          · cases h
          · cases h
        · cases h
  unfold read at h
  cases e : readAll cons max t with
  | ok fs =>
    rw [e] at h
    simp only [Out.ok.injEq] at h
    subst h
    obtain ⟨h1, h2⟩ := key _ _ e
    refine ⟨fs, rfl, h1, h2, fun v => ?_⟩
    rw [eval_tAnd]
  | error => rw [e] at h; cases h
  | panic => rw [e] at h; cases h

/-! ## where the claim is false -/

/-- "Returns … an optional error if there was a problem reading the file": a line that is no formula panics instead -/
theorem C66_panic_false : read false (2 ^ 20) "a\nb &\n".toList = .panic := by decide +kernel

/-- an empty line is read as the formula `true` of `ReadFormulas`, so the numbers of formulas and lines agree, … -/
theorem C66_blank : readAll false (2 ^ 20) "a\n\nb\n".toList = .ok [.lit ⟨"a", true⟩, .tru, .lit ⟨"b", true⟩] := by decide +kernel

/-- … and what follows a formula in its line is lost without an error -/
theorem C66_garbage_false : readAll false (2 ^ 20) "a b ) & c\nd\n".toList = .ok [.lit ⟨"a", true⟩, .lit ⟨"d", true⟩] := by decide +kernel

/-- a variable with the name of a literal is read as the literal: the formula read is not equivalent to the formula written -/
theorem C66_names_false : ∃ g, read false (2 ^ 20) (write false (.lit ⟨"~a", true⟩)) = .ok g ∧ ∃ v, g.eval v ≠ (Fm.lit ⟨"~a", true⟩ : Fm String).eval v :=
  ⟨.lit ⟨"a", false⟩, by decide +kernel, fun _ => true, by decide⟩

/-- with a name that has an end of a line one formula is written to two lines -/
theorem C66_newline_false : readAll false (2 ^ 20) (write false (.lit ⟨"a\nb", true⟩)) = .ok [.lit ⟨"a", true⟩, .lit ⟨"b", true⟩] := by decide +kernel

/-! ## examples -/

def exA : Fm String := .and [.lit ⟨"A", true⟩, .or [.lit ⟨"b", false⟩, .cc .le 1 ["A", "c"]], .impl (.lit ⟨"c", true⟩) (.lit ⟨"A", false⟩)]

example : printable exA = true := by decide +kernel
example : String.ofList (write false exA) = "A & (~b | (A + c <= 1)) & (c => ~A)\n" := by decide +kernel
example : String.ofList (write true exA) = "A\n~b | (A + c <= 1)\nc => ~A\n" := by decide +kernel
example : read false (2 ^ 20) (write true exA) = .ok exA ∧ read false (2 ^ 20) (write false exA) = .ok exA := by decide +kernel
example : read false 17 (write true exA) = .error ∧ read false 18 (write true exA) ≠ .error := by decide +kernel
/-- the hypotheses of `C66_identical_partial`: see the factory `Parser.exS` -/
example : ∃ h, PReach false Parser.exS ∧ Den Parser.exS.nodes (.impl (.lit ⟨"A", true⟩) (.lit ⟨"b", true⟩)) h := by
  refine ⟨(Factory.step (Factory.step (Factory.step (Factory.init false) (.var "A")).1 (.var "b")).1 (.impl (Factory.step (Factory.init false) (.var "A")).2
    (Factory.step (Factory.step (Factory.init false) (.var "A")).1 (.var "b")).2)).2, exS_reach, ?_⟩
  simp only [Den]
  exact ⟨(Factory.step (Factory.init false) (.var "A")).2, (Factory.step (Factory.step (Factory.init false) (.var "A")).1 (.var "b")).2, by decide +kernel, by decide +kernel, by decide +kernel⟩
example : namesOk exA = true ∧ noLt0 exA = true ∧ ∀ g ∈ parts true exA, bytes (sprint g) < 2 ^ 20 := by decide +kernel

end Verif.FormulaFile
