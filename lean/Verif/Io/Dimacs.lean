import Verif.Factory.Tree
import Verif.Spec.NormalForm
import Mathlib.Data.List.Nodup
import Mathlib.Data.List.Dedup
/-
Model of /repo/io/dimacs_writer.go and /repo/io/dimacs_reader.go on texts, and C32. Texts are lists of characters; a
formula is a tree, the names of the variables of the read formula are texts.
-/
namespace Verif.Io
open Verif Verif.Tree Verif.Spec
set_option linter.unusedSectionVars false
variable {α : Type} [DecidableEq α]

abbrev Txt := List Char

/-! ### Model of the writer -/

/-- `fmt.Sprintf("%d", n)` for `n ≥ 0` -/
def decimal (n : Nat) : Txt := Nat.toDigits 10 n

/-- dimacs_writer.go:57-60: `var2id`; `vs` is the content of the set of variables, in the order of its iteration -/
def varId (vs : List α) (x : α) : Nat := vs.idxOf x + 1

/-- dimacs_writer.go:62-67 -/
def parts : Fm α → List (Fm α)
  | .lit l => [.lit l]
  | .or fs => [.or fs]
  | .and fs => fs
  | _ => []

mutual
/-- formula/util (`Literals`): the literals of a formula in NNF (of a clause, here) -/
def litsOf : Fm α → List (Lit α)
  | .lit l => [l]
  | .or fs => litsOfL fs
  | .and fs => litsOfL fs
  | _ => []
def litsOfL : List (Fm α) → List (Lit α)
  | [] => []
  | f :: fs => litsOf f ++ litsOfL fs
end

/-- dimacs_writer.go:80-86 -/
def litTxt (vs : List α) (l : Lit α) : Txt := (if l.pos then [] else ['-']) ++ decimal (varId vs l.var)

/-- `strings.Join(ws, " ")` -/
def join : List Txt → Txt
  | [] => []
  | [w] => w
  | w :: ws => w ++ ' ' :: join ws

/-- dimacs_writer.go:77-88: the line of a clause; `ord` is the order of iteration of the set of literals -/
def clauseLine (ord : List (Lit α) → List (Lit α)) (vs : List α) (f : Fm α) : Txt :=
  join ((ord (litsOf f).dedup).map (litTxt vs)) ++ [' ', '0']

/-- dimacs_writer.go:69-73: first line -/
def header (vs : List α) (f : Fm α) : Txt :=
  ['p', ' ', 'c', 'n', 'f', ' '] ++ decimal vs.length ++ ' ' :: decimal (if f = .fls then 1 else (parts f).length)

/-- the lines of the file -/
def outLines (ord : List (Lit α) → List (Lit α)) (vs : List α) (f : Fm α) : List Txt :=
  header vs f :: (parts f).map (clauseLine ord vs) ++ (if f = .fls then [['0']] else [])

/-- dimacs_writer.go:51-100: `WriteDimacsToWriter` (writing itself does not fail); `none`: the formula is not in CNF -/
def write (ord : List (Lit α) → List (Lit α)) (vs : List α) (f : Fm α) : Option Txt :=
  if isCNF f then some ((outLines ord vs f).flatMap (· ++ ['\n'])) else none

/-! ### Model of the reader -/

/-- `unicode.IsSpace` -/
def isSpace (c : Char) : Bool :=
  c.toNat ∈ [9, 10, 11, 12, 13, 32, 0x85, 0xA0, 0x1680, 0x2028, 0x2029, 0x202f, 0x205f, 0x3000] ||
    (0x2000 ≤ c.toNat && c.toNat ≤ 0x200a)

/-- `strings.Fields`; `cur` is the current field, reversed -/
def fieldsAux : Txt → Txt → List Txt
  | cur, [] => if cur = [] then [] else [cur.reverse]
  | cur, c :: cs =>
    if isSpace c then (if cur = [] then fieldsAux [] cs else cur.reverse :: fieldsAux [] cs)
    else fieldsAux (c :: cur) cs
def fields (t : Txt) : List Txt := fieldsAux [] t

/-- lines up to '\n'; a last line without '\n' counts if it is not empty (`bufio.ScanLines`) -/
def linesAux : Txt → Txt → List Txt
  | cur, [] => if cur = [] then [] else [cur.reverse]
  | cur, c :: cs => if c = '\n' then cur.reverse :: linesAux [] cs else linesAux (c :: cur) cs
def rawLines (t : Txt) : List Txt := linesAux [] t

/-- `bufio.ScanLines` removes a '\r' at the end -/
def dropCR (l : Txt) : Txt := if l.getLast? = some '\r' then l.dropLast else l

/-- number of bytes -/
def bytes (l : Txt) : Nat := (l.map Char.utf8Size).sum

/-- dimacs_reader.go:49-54 -/
def readLit (pfx : Txt) (w : Txt) : Lit Txt :=
  match w with
  | '-' :: w' => ⟨pfx ++ w', false⟩
  | w => ⟨pfx ++ w, true⟩

/-- dimacs_reader.go:41-58: one line; `none`: error, `some none`: skipped -/
def readLine (cons : Bool) (pfx : Txt) (line : Txt) : Option (Option (Fm Txt)) :=
  if line.head? = some 'c' ∨ line.head? = some 'p' ∨ line.all isSpace then some none
  else
    let split := fields line
    if split.getLast? = some ['0'] then some (some (tOr cons (split.dropLast.map fun w => .lit (readLit pfx w))))
    else none

def readLines (cons : Bool) (pfx : Txt) : List Txt → Option (List (Fm Txt))
  | [] => some []
  | l :: ls =>
    match readLine cons pfx l with
    | none => none
    | some none => readLines cons pfx ls
    | some (some f) => (readLines cons pfx ls).map (f :: ·)

/-- dimacs_reader.go:30-66: `ReadDimacsFile`. The scanner fails for lines of `max` bytes or more (65536 in the code,
`bufio.MaxScanTokenSize`). `none`: error. -/
def read (cons : Bool) (pfx : Txt) (max : Nat) (t : Txt) : Option (List (Fm Txt)) :=
  if (rawLines t).any fun l => max ≤ bytes l then none else readLines cons pfx ((rawLines t).map dropCR)

/-! ### Words and lines -/

theorem fieldsAux_word {w : Txt} (hw : ∀ c ∈ w, isSpace c = false) (cur rest : Txt) :
    fieldsAux cur (w ++ rest) = fieldsAux (w.reverse ++ cur) rest := by
  induction w generalizing cur with
  | nil => rfl
  | cons c w ih =>
    have h1 := hw c (by simp)
    rw [List.cons_append, fieldsAux, h1, if_neg (by simp), ih fun d hd => hw d (by simp [hd])]
    simp

theorem fields_word {w : Txt} (hne : w ≠ []) (hw : ∀ c ∈ w, isSpace c = false) (rest : Txt) :
    fields (w ++ ' ' :: rest) = w :: fields rest := by
  unfold fields
  rw [fieldsAux_word hw, fieldsAux, if_pos (by decide), if_neg (by simp [hne])]
  simp

theorem fields_join {ws : List Txt} (hne : ∀ w ∈ ws, w ≠ []) (hw : ∀ w ∈ ws, ∀ c ∈ w, isSpace c = false) (rest : Txt) :
    fields (join ws ++ ' ' :: rest) = ws ++ fields rest := by
  induction ws with
  | nil =>
    show fields (' ' :: rest) = _
    unfold fields
    rw [fieldsAux, if_pos (by decide), if_pos rfl]
    rfl
  | cons w ws ih =>
    cases ws with
    | nil => exact fields_word (hne w (by simp)) (hw w (by simp)) rest
    | cons w2 ws =>
      have hj : join (w :: w2 :: ws) ++ ' ' :: rest = w ++ ' ' :: (join (w2 :: ws) ++ ' ' :: rest) := by simp [join]
      rw [hj, fields_word (hne w (by simp)) (hw w (by simp)), ih (fun w h => hne w (by simp [h])) fun w h => hw w (by simp [h])]
      rfl

theorem linesAux_line {l : Txt} (hl : '\n' ∉ l) (cur rest : Txt) :
    linesAux cur (l ++ '\n' :: rest) = (cur.reverse ++ l) :: linesAux [] rest := by
  induction l generalizing cur with
  | nil => simp [linesAux]
  | cons c l ih =>
    rw [List.cons_append, linesAux, if_neg (by rintro rfl; simp at hl), ih (by simp at hl; exact hl.2)]
    simp

theorem rawLines_flat {ls : List Txt} (h : ∀ l ∈ ls, '\n' ∉ l) : rawLines (ls.flatMap (· ++ ['\n'])) = ls := by
  induction ls with
  | nil => rfl
  | cons l ls ih =>
    rw [List.flatMap_cons, List.append_assoc]
    unfold rawLines
    rw [show l ++ (['\n'] ++ ls.flatMap (· ++ ['\n'])) = l ++ '\n' :: ls.flatMap (· ++ ['\n']) from rfl,
      linesAux_line (h l (by simp))]
    have := ih fun l hl => h l (by simp [hl])
    unfold rawLines at this
    rw [this]
    simp

/-! ### Numbers -/

theorem decimal_inj {m n : Nat} (h : decimal m = decimal n) : m = n := by
  have := congrArg (fun l => Nat.ofDigitChars 10 l 0) h
  simpa [decimal, Nat.ofDigitChars_toDigits] using this

theorem decimal_ne (n : Nat) : decimal n ≠ [] := Nat.toDigits_ne_nil

theorem decimal_digit {n : Nat} {c : Char} (h : c ∈ decimal n) : c.isDigit := Nat.isDigit_of_mem_toDigits (by omega) (by omega) h

theorem digit_range {c : Char} (h : c.isDigit) : 48 ≤ c.toNat ∧ c.toNat ≤ 57 := by
  simp only [Char.isDigit, Bool.and_eq_true, decide_eq_true_eq] at h
  exact ⟨h.1, h.2⟩

theorem digit_space {c : Char} (h : c.isDigit) : isSpace c = false := by
  have := digit_range h
  by_contra hc
  simp only [isSpace, Bool.not_eq_false, Bool.or_eq_true, Bool.and_eq_true, decide_eq_true_eq, List.mem_cons, List.not_mem_nil,
    or_false] at hc
  omega

theorem digit_ne {c d : Char} (h : c.isDigit) (hd : d.isDigit = false) : c ≠ d := by
  rintro rfl; rw [h] at hd; cases hd

/-! ### Clauses -/

theorem litsOfL_flat (fs : List (Fm α)) : litsOfL fs = fs.flatMap litsOf := by
  induction fs with
  | nil => rfl
  | cons f fs ih => rw [litsOfL, ih, List.flatMap_cons]

theorem litsOf_eval {f : Fm α} (hf : isClause f = true) (v : α → Bool) : f.eval v = (litsOf f).any (·.eval v) := by
  cases f with
  | lit l => simp [litsOf, Fm.eval]
  | or fs =>
    simp only [isClause] at hf
    rw [litsOf, litsOfL_flat]
    induction fs with
    | nil => rfl
    | cons f fs ih =>
      simp only [List.all_cons, Bool.and_eq_true] at hf
      have := ih hf.2
      cases f <;> simp [isLit] at hf
      next l =>
        simp only [List.flatMap_cons, litsOf, List.any_append, List.any_cons, List.any_nil, Bool.or_false, ← this]
        simp [Fm.eval, Fm.evalAny]
  | _ => simp [isClause] at hf

theorem litsOf_vars {f : Fm α} (hf : isClause f = true) {l : Lit α} (hl : l ∈ litsOf f) : l.var ∈ f.vars := by
  cases f with
  | lit l' => simp [litsOf] at hl; subst hl; simp
  | or fs =>
    rw [litsOf, litsOfL_flat, List.mem_flatMap] at hl
    obtain ⟨g, hg, hl⟩ := hl
    simp only [isClause, List.all_eq_true] at hf
    have h1 := hf g hg
    cases g <;> simp [isLit] at h1
    simp [litsOf] at hl
    subst hl
    simp only [Fm.vars_or, List.mem_flatMap]
    exact ⟨_, hg, by simp⟩
  | _ => simp [isClause] at hf

theorem litTxt_ne (vs : List α) (l : Lit α) : litTxt vs l ≠ [] := by
  unfold litTxt
  intro h
  exact decimal_ne _ (List.append_eq_nil_iff.1 h).2

theorem litTxt_char {vs : List α} {l : Lit α} {c : Char} (h : c ∈ litTxt vs l) : c = '-' ∨ c.isDigit := by
  unfold litTxt at h
  rcases List.mem_append.1 h with h | h
  · split at h <;> simp_all
  · exact .inr (decimal_digit h)

theorem litTxt_space (vs : List α) (l : Lit α) : ∀ c ∈ litTxt vs l, isSpace c = false := by
  intro c h
  rcases litTxt_char h with rfl | h
  · decide
  · exact digit_space h

theorem readLit_litTxt (pfx : Txt) (vs : List α) (l : Lit α) :
    readLit pfx (litTxt vs l) = ⟨pfx ++ decimal (varId vs l.var), l.pos⟩ := by
  unfold litTxt
  cases hl : l.pos with
  | false => rfl
  | true =>
    simp only [if_true, List.nil_append]
    cases hd : decimal (varId vs l.var) with
    | nil => exact absurd hd (decimal_ne _)
    | cons d ds =>
      have : d ≠ '-' := digit_ne (decimal_digit (n := varId vs l.var) (by rw [hd]; simp)) (by decide)
      unfold readLit
      split
      · next h => injection h with h; exact absurd h this
      · rfl

theorem join_char {ws : List Txt} {c : Char} (h : c ∈ join ws) : c = ' ' ∨ ∃ w ∈ ws, c ∈ w := by
  induction ws with
  | nil => cases h
  | cons w ws ih =>
    cases ws with
    | nil => exact .inr ⟨w, by simp, h⟩
    | cons w2 ws =>
      rw [join] at h
      · rcases List.mem_append.1 h with h | h
        · exact .inr ⟨w, by simp, h⟩
        · rcases List.mem_cons.1 h with h | h
          · exact .inl h
          · rcases ih h with h | ⟨w', h1, h2⟩
            · exact .inl h
            · exact .inr ⟨w', by simp [h1], h2⟩
      · simp

theorem clauseLine_char {ord : List (Lit α) → List (Lit α)} {vs : List α} {f : Fm α} {c : Char}
    (h : c ∈ clauseLine ord vs f) : c = ' ' ∨ c = '-' ∨ c.isDigit := by
  rcases List.mem_append.1 h with h | h
  · rcases join_char h with h | ⟨w, h1, h2⟩
    · exact .inl h
    · obtain ⟨l, -, rfl⟩ := List.mem_map.1 h1
      exact .inr (litTxt_char h2)
  · simp at h
    rcases h with rfl | rfl
    · exact .inl rfl
    · exact .inr (.inr (by decide))

theorem fields_clauseLine (ord : List (Lit α) → List (Lit α)) (vs : List α) (f : Fm α) :
    fields (clauseLine ord vs f) = (ord (litsOf f).dedup).map (litTxt vs) ++ [['0']] := by
  unfold clauseLine
  rw [show ([' ', '0'] : Txt) = ' ' :: ['0'] from rfl, fields_join]
  · rfl
  · intro w hw
    obtain ⟨l, -, rfl⟩ := List.mem_map.1 hw
    exact litTxt_ne vs l
  · intro w hw
    obtain ⟨l, -, rfl⟩ := List.mem_map.1 hw
    exact litTxt_space vs l

/-- the literal under its number -/
def number (pfx : Txt) (vs : List α) (x : α) : Txt := pfx ++ decimal (varId vs x)

theorem dropCR_last {l : Txt} {c : Char} (hc : c ≠ '\r') : dropCR (l ++ [c]) = l ++ [c] := by
  unfold dropCR
  rw [if_neg]
  simp [hc]

theorem readLine_clauseLine (cons : Bool) (pfx : Txt) (ord : List (Lit α) → List (Lit α)) (vs : List α) (f : Fm α) :
    readLine cons pfx (dropCR (clauseLine ord vs f)) = some (some (tOr cons
      ((ord (litsOf f).dedup).map fun l => .lit ⟨number pfx vs l.var, l.pos⟩))) := by
  have e1 : dropCR (clauseLine ord vs f) = clauseLine ord vs f := by
    unfold clauseLine
    rw [show ([' ', '0'] : Txt) = [' '] ++ ['0'] from rfl, ← List.append_assoc]
    exact dropCR_last (by decide)
  rw [e1]
  unfold readLine
  rw [if_neg]
  · simp only [fields_clauseLine, List.getLast?_append, List.getLast?_singleton, Option.some_or, if_true,
      List.dropLast_concat, List.map_map]
    congr 4
    funext l
    show Fm.lit (readLit pfx (litTxt vs l)) = _
    rw [readLit_litTxt]
    rfl
  · rintro (h | h | h)
    · have := clauseLine_char (List.mem_of_mem_head? (Option.mem_def.2 h))
      rcases this with h | h | h <;> revert h <;> decide
    · have := clauseLine_char (List.mem_of_mem_head? (Option.mem_def.2 h))
      rcases this with h | h | h <;> revert h <;> decide
    · rw [List.all_eq_true] at h
      have := h '0' (List.mem_append_right _ (by simp))
      revert this; decide

/-! ### Round trip -/

theorem parts_clause {f : Fm α} (hf : isCNF f = true) : ∀ g ∈ parts f, isClause g = true := by
  intro g hg
  cases f with
  | lit l => simp [parts] at hg; subst hg; rfl
  | or fs => simp [parts] at hg; subst hg; simpa [isCNF] using hf
  | and fs => simp only [isCNF, List.all_eq_true] at hf; exact hf g hg
  | _ => simp [parts] at hg

theorem parts_vars {f g : Fm α} (hg : g ∈ parts f) : ∀ x ∈ g.vars, x ∈ f.vars := by
  intro x hx
  cases f with
  | lit l => simp [parts] at hg; subst hg; exact hx
  | or fs => simp [parts] at hg; subst hg; exact hx
  | and fs => simp only [Fm.vars_and, List.mem_flatMap]; exact ⟨g, hg, hx⟩
  | _ => simp [parts] at hg

theorem parts_eval {f : Fm α} (hf : isCNF f = true) (v : α → Bool) :
    f.eval v = true ↔ f ≠ .fls ∧ ∀ g ∈ parts f, g.eval v = true := by
  cases f with
  | fls => simp [Fm.eval]
  | tru => simp [Fm.eval, parts]
  | lit l => simp [parts]
  | or fs => simp [parts]
  | and fs => simp [parts, List.all_eq_true]
  | _ => simp [isCNF, isClause] at hf

theorem readLines_map (cons : Bool) (pfx : Txt) {β : Type} (g : β → Txt) (h : β → Fm Txt) (xs : List β)
    (hh : ∀ x ∈ xs, readLine cons pfx (g x) = some (some (h x))) (rest : List Txt) :
    readLines cons pfx (xs.map g ++ rest) = (readLines cons pfx rest).map (xs.map h ++ ·) := by
  induction xs with
  | nil => simp
  | cons x xs ih =>
    rw [List.map_cons, List.cons_append, readLines, hh x (by simp)]
    simp only
    rw [ih fun y hy => hh y (by simp [hy])]
    cases readLines cons pfx rest <;> simp

theorem header_head (vs : List α) (f : Fm α) : ∃ t, header vs f = 'p' :: t := ⟨_, rfl⟩

theorem header_char {vs : List α} {f : Fm α} {c : Char} (h : c ∈ header vs f) : c ∈ ['p', ' ', 'c', 'n', 'f', ' '] ∨ c = ' ' ∨ c.isDigit := by
  simp only [header, List.mem_append, List.mem_cons] at h
  rcases h with (h | h) | h | h
  · exact .inl (by simpa using h)
  · exact .inr (.inr (decimal_digit h))
  · exact .inr (.inl h)
  · exact .inr (.inr (decimal_digit h))

theorem outLines_nl (ord : List (Lit α) → List (Lit α)) (vs : List α) (f : Fm α) : ∀ l ∈ outLines ord vs f, '\n' ∉ l := by
  intro l hl hc
  unfold outLines at hl
  rcases List.mem_append.1 hl with hl | hl
  · rcases List.mem_cons.1 hl with rfl | hl
    · rcases header_char hc with h | h | h <;> revert h <;> decide
    · obtain ⟨g, -, rfl⟩ := List.mem_map.1 hl
      rcases clauseLine_char hc with h | h | h <;> revert h <;> decide
  · split at hl
    · simp at hl; subst hl; revert hc; decide
    · cases hl

theorem readLines_out (cons : Bool) (pfx : Txt) (ord : List (Lit α) → List (Lit α)) (vs : List α) (f : Fm α) :
    readLines cons pfx ((outLines ord vs f).map dropCR) = some
      ((parts f).map (fun g => tOr cons ((ord (litsOf g).dedup).map fun l => .lit ⟨number pfx vs l.var, l.pos⟩)) ++
        if f = .fls then [.fls] else []) := by
  have h1 : readLine cons pfx (dropCR (header vs f)) = some none := by
    unfold readLine
    rw [if_pos]
    refine .inr (.inl ?_)
    obtain ⟨t, ht⟩ : ∃ t, header vs f = 'p' :: ' ' :: t := ⟨_, rfl⟩
    rw [ht]
    unfold dropCR
    split <;> rfl
  unfold outLines
  rw [List.map_append, List.map_cons, List.map_map, List.cons_append, readLines, h1]
  simp only
  rw [readLines_map cons pfx (dropCR ∘ clauseLine ord vs) (fun g => tOr cons ((ord (litsOf g).dedup).map fun l : Lit α => .lit ⟨number pfx vs l.var, l.pos⟩))
    _ fun g _ => readLine_clauseLine cons pfx ord vs g]
  by_cases hf : f = .fls
  · rw [if_pos hf, if_pos hf]
    rfl
  · rw [if_neg hf, if_neg hf]
    rfl

/-- C32: what is written is read back, up to the numbering of the variables: if no line is too long for the scanner, the
read clauses are satisfied by an assignment if and only if the formula is under the numbering, and the numbering is
injective. -/
theorem C32_roundtrip (cons : Bool) {f : Fm α} (hf : isCNF f = true) {vs : List α}
    (hv : ∀ x ∈ f.vars, x ∈ vs) {ord : List (Lit α) → List (Lit α)} (hord : ∀ l, (ord l).Perm l) (pfx : Txt) (max : Nat) :
    ∃ txt, write ord vs f = some txt ∧
      (read cons pfx max txt = none ↔ ∃ l ∈ rawLines txt, max ≤ bytes l) ∧
      (∀ x ∈ f.vars, ∀ y ∈ f.vars, number pfx vs x = number pfx vs y → x = y) ∧
      ∀ cs, read cons pfx max txt = some cs →
        (∀ v, (∀ c ∈ cs, c.eval v = true) ↔ f.eval (fun x => v (number pfx vs x)) = true) ∧
        ∀ c ∈ cs, ∀ y ∈ c.vars, ∃ x ∈ f.vars, y = number pfx vs x := by
  refine ⟨_, by unfold write; rw [if_pos hf], ?_, ?_, ?_⟩
  · unfold read
    rw [rawLines_flat (outLines_nl ord vs f), readLines_out]
    simp
  · intro x hx y hy h
    have := decimal_inj (List.append_cancel_left h)
    unfold varId at this
    exact (List.idxOf_inj (hv x hx)).1 (by omega)
  · intro cs hcs
    unfold read at hcs
    rw [rawLines_flat (outLines_nl ord vs f), readLines_out] at hcs
    split at hcs
    · cases hcs
    · injection hcs with hcs
      subst hcs
      have key : ∀ (v : Txt → Bool) (g : Fm α), isClause g = true →
          (tOr cons ((ord (litsOf g).dedup).map fun l => .lit ⟨number pfx vs l.var, l.pos⟩)).eval v =
            g.eval (fun x => v (number pfx vs x)) := by
        intro v g hg
        rw [eval_tOr, litsOf_eval hg, List.any_map, Bool.eq_iff_iff, List.any_eq_true, List.any_eq_true]
        constructor
        · rintro ⟨l, h1, h2⟩
          exact ⟨l, List.mem_dedup.1 ((hord _).mem_iff.1 h1), by simpa [Lit.eval] using h2⟩
        · rintro ⟨l, h1, h2⟩
          exact ⟨l, (hord _).mem_iff.2 (List.mem_dedup.2 h1), by simpa [Lit.eval] using h2⟩
      constructor
      · intro v
        rw [parts_eval hf]
        constructor
        · intro h
          refine ⟨?_, fun g hg => ?_⟩
          · rintro rfl
            have := h .fls (by simp)
            simp at this
          · rw [← key v g (parts_clause hf g hg)]
            exact h _ (List.mem_append_left _ (List.mem_map.2 ⟨g, hg, rfl⟩))
        · rintro ⟨h1, h2⟩ c hc
          rw [if_neg h1, List.append_nil] at hc
          obtain ⟨g, hg, rfl⟩ := List.mem_map.1 hc
          rw [key v g (parts_clause hf g hg)]
          exact h2 g hg
      · intro c hc y hy
        rcases List.mem_append.1 hc with hc | hc
        · obtain ⟨g, hg, rfl⟩ := List.mem_map.1 hc
          obtain ⟨l', h1, h2⟩ := vars_tOr _ _ y hy
          obtain ⟨l, h3, rfl⟩ := List.mem_map.1 h1
          simp at h2
          exact ⟨l.var, parts_vars hg _ (litsOf_vars (parts_clause hf g hg) (List.mem_dedup.1 ((hord _).mem_iff.1 h3))), h2⟩
        · split at hc
          · simp at hc; subst hc; simp at hy
          · cases hc

/-- C32: the written text has the form the DIMACS standard requires: the header states the number of variables and the
number of the lines that follow, each of which consists of numbers between 1 and the number of variables, possibly with
a minus sign, and a closing zero. -/
theorem C32_format {f : Fm α} (hf : isCNF f = true) {vs : List α} (hv : ∀ x ∈ f.vars, x ∈ vs)
    {ord : List (Lit α) → List (Lit α)} (hord : ∀ l, (ord l).Perm l) :
    ∃ txt ls, write ord vs f = some txt ∧
      rawLines txt = ("p cnf ".toList ++ decimal vs.length ++ " ".toList ++ decimal ls.length) :: ls ∧
      ∀ l ∈ ls, ∃ ws, fields l = ws ++ [['0']] ∧
        ∀ w ∈ ws, ∃ k, 1 ≤ k ∧ k ≤ vs.length ∧ (w = decimal k ∨ w = '-' :: decimal k) := by
  refine ⟨_, (parts f).map (clauseLine ord vs) ++ (if f = .fls then [['0']] else []),
    by unfold write; rw [if_pos hf], ?_, ?_⟩
  · rw [rawLines_flat (outLines_nl ord vs f)]
    unfold outLines header
    rw [List.cons_append]
    congr 1
    have : ((parts f).map (clauseLine ord vs) ++ (if f = .fls then [['0']] else [])).length =
        if f = .fls then 1 else (parts f).length := by
      by_cases h : f = .fls
      · subst h; rfl
      · rw [if_neg h, if_neg h]; simp
    rw [this]
    simp
  · intro l hl
    rcases List.mem_append.1 hl with hl | hl
    · obtain ⟨g, hg, rfl⟩ := List.mem_map.1 hl
      refine ⟨_, fields_clauseLine _ _ _, fun w hw => ?_⟩
      obtain ⟨x, hx, rfl⟩ := List.mem_map.1 hw
      have hx := hv _ (parts_vars hg _ (litsOf_vars (parts_clause hf g hg) (List.mem_dedup.1 ((hord _).mem_iff.1 hx))))
      have := List.idxOf_lt_length_iff.2 hx
      refine ⟨varId vs x.var, ?_, ?_, ?_⟩
      · unfold varId; omega
      · unfold varId; omega
      · unfold litTxt
        cases x.pos <;> simp
    · split at hl
      · simp at hl; subst hl
        exact ⟨[], by decide, by simp⟩
      · cases hl

/-- C32: a formula that is not in CNF is not written -/
theorem C32_notCNF (ord : List (Lit α) → List (Lit α)) (vs : List α) {f : Fm α} (hf : isCNF f = false) : write ord vs f = none := by
  unfold write; rw [hf]; rfl

theorem readLines_none (cons : Bool) (pfx : Txt) (ls : List Txt) :
    readLines cons pfx ls = none ↔ ∃ l ∈ ls, readLine cons pfx l = none := by
  induction ls with
  | nil => simp [readLines]
  | cons l ls ih =>
    rw [readLines]
    cases h : readLine cons pfx l with
    | none => simp [h]
    | some o => cases o <;> simp [h, ih]

/-- C32 (part): the reader fails if a line that is not empty and does not begin with `c` or `p` does not end with the
field `0`. Missing: other malformed lines are accepted, see `C32_malformed_false`. -/
theorem C32_malformed_partial (cons : Bool) (pfx : Txt) (max : Nat) (t : Txt)
    (h : ∃ l ∈ (rawLines t).map dropCR, l.head? ≠ some 'c' ∧ l.head? ≠ some 'p' ∧ (∃ c ∈ l, isSpace c = false) ∧
      (fields l).getLast? ≠ some ['0']) : read cons pfx max t = none := by
  unfold read
  split
  · rfl
  · obtain ⟨l, h1, h2, h3, ⟨c, h4, h5⟩, h6⟩ := h
    rw [readLines_none]
    refine ⟨l, h1, ?_⟩
    unfold readLine
    rw [if_neg]
    · simp only [if_neg h6]
    · rintro (h | h | h)
      · exact h2 h
      · exact h3 h
      · rw [List.all_eq_true] at h
        rw [h c h4] at h5
        cases h5

/-- malformed lines that are accepted: a zero within the line becomes a variable `v0` (so `1 0 2 0`, two clauses of the
format, is read as the clause `v1 | v0 | v2`), a word that is no number becomes a variable, a double sign is accepted -/
theorem C32_malformed_false :
    read false ['v'] 65536 "1 0 2 0\n".toList =
      some [.or [.lit ⟨['v', '1'], true⟩, .lit ⟨['v', '0'], true⟩, .lit ⟨['v', '2'], true⟩]] ∧
    read false ['v'] 65536 "x 0\n".toList = some [.lit ⟨['v', 'x'], true⟩] ∧
    read false ['v'] 65536 "--1 0\n".toList = some [.lit ⟨['v', '-', '1'], false⟩] := by
  decide +kernel

/-! ### Examples -/

def exCnf : Fm Char := .and [.or [.lit ⟨'a', true⟩, .lit ⟨'b', false⟩], .lit ⟨'c', true⟩]

example : isCNF exCnf = true ∧ (∀ x ∈ exCnf.vars, x ∈ ['a', 'b', 'c']) := by decide +kernel
example : write id ['a', 'b', 'c'] exCnf = some "p cnf 3 2\n1 -2 0\n3 0\n".toList := by decide +kernel
example : (write id ['a', 'b', 'c'] exCnf).bind (read false ['v'] 65536) =
    some [.or [.lit ⟨['v', '1'], true⟩, .lit ⟨['v', '2'], false⟩], .lit ⟨['v', '3'], true⟩] := by decide +kernel
/-- the constants -/
example : (write id [] (.fls : Fm Char)).bind (read false ['v'] 65536) = some [.fls] := by decide +kernel
example : (write id [] (.tru : Fm Char)).bind (read false ['v'] 65536) = some [] := by decide +kernel
/-- a line without the final zero -/
example : read false ['v'] 65536 "1 2\n".toList = none := by decide +kernel
/-- a line that is too long for the scanner -/
example : read false ['v'] 4 "1 2 0\n".toList = none := by decide +kernel

end Verif.Io
