import Verif.Parser.Model
/-! # The tokens of a printed formula -/
namespace Verif.Parser
open Verif Verif.Tree

/-! ## admissible formulas -/

/-- `[A-Za-z0-9_@#][A-Za-z0-9_#]*` -/
def isName (s : String) : Bool := match s.toList with
  | [] => false
  | c :: cs => start c && cs.all part

/-- only digits -/
def numeric (s : String) : Bool := s.toList.all digit

/-- a summand: the name is admissible; a positive literal is not a number -/
def termOk (t : Int × Lit String) : Bool := isName t.2.var && (!t.2.pos || !numeric t.2.var)

mutual
/-- the names are admissible (in constraints: no numbers), conjunctions and disjunctions have at least two operands, the last one not `$false`; constraints have summands -/
def printable : Fm String → Bool
  | .fls => true
  | .tru => true
  | .lit l => isName l.var
  | .not f => printable f
  | .impl l r => printable l && printable r
  | .equiv l r => printable l && printable r
  | .and fs => decide (2 ≤ fs.length) && printableL fs && decide (fs.getLast? ≠ some .fls)
  | .or fs => decide (2 ≤ fs.length) && printableL fs && decide (fs.getLast? ≠ some .fls)
  | .cc _ _ xs => !xs.isEmpty && xs.all fun x => isName x && !numeric x
  | .pbc _ _ ts => !ts.isEmpty && ts.all termOk
def printableL : List (Fm String) → Bool
  | [] => true
  | f :: fs => printable f && printableL fs
end

theorem printableL_iff (fs : List (Fm String)) : printableL fs = true ↔ ∀ f ∈ fs, printable f = true := by
  induction fs with
  | nil => simp [printableL]
  | cons f fs ih => simp [printableL, ih]

/-! ## tokens -/

def litTok (l : Lit String) : Tok := if l.pos && numeric l.var then .number l.var.toList else .literal (litTxt l)

def termToks (t : Int × Lit String) : List Tok := if t.1 ≠ 1 then [.number (intTxt t.1), .mul, litTok t.2] else [litTok t.2]

def sumToks : List (Int × Lit String) → List Tok
  | [] => []
  | [t] => termToks t
  | t :: ts => termToks t ++ .add :: sumToks ts

def brToks (b : Bool) (ts : List Tok) : List Tok := if b then .lbr :: (ts ++ [.rbr]) else ts

mutual
def toks : Fm String → List Tok
  | .fls => [.fls]
  | .tru => [.tru]
  | .lit l => [litTok l]
  | .not f => .not :: .lbr :: (toks f ++ [.rbr])
  | .impl l r => brToks (6 ≤ rank l) (toks l) ++ .impl :: brToks (6 ≤ rank r) (toks r)
  | .equiv l r => brToks (7 ≤ rank l) (toks l) ++ .equiv :: brToks (7 ≤ rank r) (toks r)
  | .and fs => toksN 4 .and fs
  | .or fs => toksN 5 .or fs
  | .cc c k xs => sumToks (xs.map fun x => (1, ⟨x, true⟩)) ++ [.cmp c, .number (intTxt k)]
  | .pbc c k ts => sumToks ts ++ [.cmp c, .number (intTxt k)]
def toksN (r : Nat) (op : Tok) : List (Fm String) → List Tok
  | [] => []
  | [f] => brToks (r ≤ rank f) (toks f)
  | f :: g :: fs => brToks (r ≤ rank f) (toks f) ++ op :: toksN r op (g :: fs)
end

/-! ## runs of the lexer -/

inductive Lexes : Txt → List Tok → Prop
  | nil : Lexes [] []
  | step {m rest : Txt} {t : Option Tok} {ts : List Tok} : lexOne (m ++ rest) = some (t, m) → m ≠ [] → Lexes rest ts → Lexes (m ++ rest) (t.toList ++ ts)

theorem Lexes.lexF {cs : Txt} {ts : List Tok} (h : Lexes cs ts) : ∀ n, cs.length ≤ n → lexF n cs = some ts := by
  induction h with
  | nil => intro n _; cases n <;> rfl
  | step h1 h2 _ ih =>
    rename_i m rest t ts _
    intro n hn
    cases m with
    | nil => exact absurd rfl h2
    | cons c cs =>
      cases n with
      | zero => simp at hn
      | succ n =>
        simp only [List.cons_append] at h1 ⊢
        unfold Verif.Parser.lexF
        rw [h1]
        dsimp only
        have : (c :: (cs ++ rest)).drop (c :: cs).length = rest := by simp
        rw [this, ih n (by simp at hn; omega)]

theorem Lexes.lex {cs : Txt} {ts : List Tok} (h : Lexes cs ts) : lex cs = some ts := h.lexF _ (Nat.le_refl _)

/-- the next character does not belong to a name -/
def Delim : Txt → Prop
  | [] => True
  | c :: _ => part c = false

theorem takeWhile_delim {p : Char → Bool} (hp : ∀ c, p c = true → part c = true) {w rest : Txt} (hw : ∀ c ∈ w, p c = true) (hr : Delim rest) : (w ++ rest).takeWhile p = w := by
  rw [List.takeWhile_append_of_pos hw]
  cases rest with
  | nil => simp
  | cons c r =>
    have hr : part c = false := hr
    have : p c = false := by
      cases h : p c with
      | false => rfl
      | true => rw [hp c h] at hr; cases hr
    rw [List.takeWhile_cons_of_neg (by simp [this])]
    simp

theorem takeWhile_lt {p : Char → Bool} {rest : Txt} : ∀ {w : Txt}, ¬ (∀ x ∈ w, p x = true) → ((w ++ rest).takeWhile p).length < w.length
  | [], h => absurd (fun _ h => absurd h List.not_mem_nil) h
  | c :: cs, h => by
    rw [List.cons_append]
    by_cases hc : p c = true
    · rw [List.takeWhile_cons_of_pos hc]
      have := takeWhile_lt (p := p) (rest := rest) (w := cs) fun h' => h fun x hx => by
        rcases List.mem_cons.1 hx with rfl | hx
        · exact hc
        · exact h' x hx
      simpa using this
    · rw [List.takeWhile_cons_of_neg hc]; simp

theorem digit_part (c : Char) (h : digit c = true) : part c = true := by
  unfold digit at h
  simp [part, Char.isAlphanum, h]

theorem start_ne {c d : Char} (hc : start c = true) (hd : start d = false) : (d == c) = false := by
  apply beq_false_of_ne
  rintro rfl
  rw [hc] at hd; cases hd

theorem start_white {c : Char} (hc : start c = true) : white c = false := by
  cases h : white c with
  | false => rfl
  | true =>
    simp only [white, Bool.or_eq_true, decide_eq_true_eq] at h
    rcases h with ((rfl | rfl) | rfl) | rfl <;> exact absurd hc (by decide)

theorem mWord_ne {d : Char} {w : Txt} {c : Char} {cs : Txt} (h : (d == c) = false) : mWord (d :: w) (c :: cs) = [] := by
  simp [mWord, List.isPrefixOf, h]

/-- a name followed by a delimiter -/
theorem lexOne_name {c : Char} {cs rest : Txt} (hc : start c = true) (hcs : ∀ x ∈ cs, part x = true) (hr : Delim rest) :
    lexOne (c :: cs ++ rest) = some (some (if (c :: cs).all digit then .number (c :: cs) else .literal (c :: cs)), c :: cs) := by
  have hl : mLiteral (c :: (cs ++ rest)) = c :: cs := by
    have h1 : c ≠ '~' := by rintro rfl; exact absurd hc (by decide)
    unfold mLiteral
    split
    · rename_i e; exact absurd (List.cons.inj e).1 h1
    · rename_i e; cases e; rw [if_pos hc, takeWhile_delim (fun _ h => h) hcs hr]
    · rename_i e; cases e
  have hn : mNumber (c :: (cs ++ rest)) = (c :: (cs ++ rest)).takeWhile digit := by
    have h1 : c ≠ '-' := by rintro rfl; exact absurd hc (by decide)
    unfold mNumber
    split
    · rename_i e; exact absurd (List.cons.inj e).1 h1
    · rfl
  have hw : mWhite (c :: (cs ++ rest)) = [] := by unfold mWhite; rw [List.takeWhile_cons_of_neg (by simp [start_white hc])]
  have hm : ∀ (d : Char) (w : Txt), start d = false → mWord (d :: w) (c :: (cs ++ rest)) = [] := fun d w hd => mWord_ne (start_ne hc hd)
  have hs : lexOne (c :: cs ++ rest) = (let d := (c :: (cs ++ rest)).takeWhile digit
      if (c :: cs).length > matchLen (if d.length > 0 then some (some (Tok.number d), d) else none) then some (some (.literal (c :: cs)), c :: cs)
      else if d.length > 0 then some (some (Tok.number d), d) else none) := by
    simp only [lexOne, rules, List.cons_append, List.foldl_cons, List.foldl_nil, hl, hn, hw, hm '$' _ (by decide), hm '(' _ (by decide), hm ')' _ (by decide), hm '~' _ (by decide), hm '&' _ (by decide),
      hm '|' _ (by decide), hm '=' _ (by decide), hm '<' _ (by decide), hm '>' _ (by decide), hm '*' _ (by decide), hm '+' _ (by decide), List.length_nil, Nat.not_lt_zero, gt_iff_lt, if_false, show matchLen none = 0 from rfl]
  rw [hs]
  by_cases h : (c :: cs).all digit
  · have hx : (c :: (cs ++ rest)).takeWhile digit = c :: cs := by
      rw [← List.cons_append]; exact takeWhile_delim digit_part (by simpa using h) hr
    rw [hx, if_pos h]
    simp [matchLen]
  · have hx : ((c :: (cs ++ rest)).takeWhile digit).length < (c :: cs).length := by
      rw [← List.cons_append]; exact takeWhile_lt (by simpa using h)
    rw [if_neg h]
    dsimp only
    rw [if_pos]
    split
    · exact hx
    · simp [matchLen]

theorem lexOne_neg {c : Char} {cs rest : Txt} (hc : start c = true) (hcs : ∀ x ∈ cs, part x = true) (hr : Delim rest) :
    lexOne ('~' :: c :: cs ++ rest) = some (some (.literal ('~' :: c :: cs)), '~' :: c :: cs) := by
  have hl : mLiteral ('~' :: c :: (cs ++ rest)) = '~' :: c :: cs := by
    unfold mLiteral
    simp only [if_pos hc, takeWhile_delim (fun _ h => h) hcs hr]
  have hn : mNumber ('~' :: c :: (cs ++ rest)) = [] := rfl
  have hw : mWhite ('~' :: c :: (cs ++ rest)) = [] := rfl
  have hm : ∀ (d : Char) (w : Txt), (d == '~') = false → mWord (d :: w) ('~' :: c :: (cs ++ rest)) = [] := fun d w hd => mWord_ne hd
  have ht : mWord ['~'] ('~' :: c :: (cs ++ rest)) = ['~'] := rfl
  simp [lexOne, rules, matchLen, hl, hn, hw, ht, hm '$' _ (by decide), hm '(' _ (by decide), hm ')' _ (by decide), hm '&' _ (by decide),
      hm '|' _ (by decide), hm '=' _ (by decide), hm '<' _ (by decide), hm '>' _ (by decide), hm '*' _ (by decide), hm '+' _ (by decide)]

theorem lexOne_minus {d rest : Txt} (hd : ∀ x ∈ d, digit x = true) (hne : d ≠ []) (hr : Delim rest) :
    lexOne ('-' :: d ++ rest) = some (some (.number ('-' :: d)), '-' :: d) := by
  have hn : mNumber ('-' :: (d ++ rest)) = '-' :: d := by
    unfold mNumber
    simp only [takeWhile_delim digit_part hd hr, if_neg hne]
  have hl : mLiteral ('-' :: (d ++ rest)) = [] := by
    unfold mLiteral
    split
    · rename_i e; cases e
    · rename_i e; cases e; rfl
    · rfl
  have hw : mWhite ('-' :: (d ++ rest)) = [] := rfl
  have hm : ∀ (e : Char) (w : Txt), (e == '-') = false → mWord (e :: w) ('-' :: (d ++ rest)) = [] := fun d w hd => mWord_ne hd
  simp [lexOne, rules, matchLen, hl, hn, hw, hm '$' _ (by decide), hm '(' _ (by decide), hm ')' _ (by decide), hm '~' _ (by decide), hm '&' _ (by decide),
      hm '|' _ (by decide), hm '=' _ (by decide), hm '<' _ (by decide), hm '>' _ (by decide), hm '*' _ (by decide), hm '+' _ (by decide)]

/-! ## pieces -/

theorem isName_cases {s : String} (h : isName s = true) : ∃ c cs, s.toList = c :: cs ∧ start c = true ∧ ∀ x ∈ cs, part x = true := by
  unfold isName at h
  split at h
  · cases h
  · rename_i c cs e
    simp only [Bool.and_eq_true, List.all_eq_true] at h
    exact ⟨c, cs, e, h.1, h.2⟩

theorem lexes_lit {l : Lit String} (h : isName l.var = true) {rest : Txt} {ts : List Tok} (hr : Delim rest) (hl : Lexes rest ts) : Lexes (litTxt l ++ rest) (litTok l :: ts) := by
  obtain ⟨c, cs, e, h1, h2⟩ := isName_cases h
  obtain ⟨x, p⟩ := l
  cases p with
  | true =>
    have := Lexes.step (lexOne_name h1 h2 hr) (by simp) hl
    simpa [litTxt, litTok, numeric, e, Option.toList] using this
  | false =>
    have := Lexes.step (lexOne_neg h1 h2 hr) (by simp) hl
    simpa [litTxt, litTok, numeric, e, Option.toList] using this

theorem digits_ok (n : Nat) : Nat.toDigits 10 n ≠ [] ∧ ∀ x ∈ Nat.toDigits 10 n, digit x = true := ⟨Io.decimal_ne n, fun _ h => Io.decimal_digit h⟩

theorem lexes_int (z : Int) {rest : Txt} {ts : List Tok} (hr : Delim rest) (hl : Lexes rest ts) : Lexes (intTxt z ++ rest) (.number (intTxt z) :: ts) := by
  obtain ⟨h1, h2⟩ := digits_ok z.natAbs
  unfold intTxt
  split
  · exact Lexes.step (lexOne_minus h2 h1 hr) (by simp) hl
  · cases hd : Nat.toDigits 10 z.natAbs with
    | nil => exact absurd hd h1
    | cons c cs =>
      rw [hd] at h2
      have hp := digit_part c (h2 c List.mem_cons_self)
      have := Lexes.step (lexOne_name (c := c) (by simp [start, hp]) (fun x hx => digit_part x (h2 x (List.mem_cons_of_mem _ hx))) hr) (by simp) hl
      rw [if_pos (List.all_eq_true.2 h2)] at this
      exact this

theorem lexes_word {w : Txt} {t : Option Tok} {rest : Txt} {ts : List Tok} (h : lexOne (w ++ rest) = some (t, w)) (hw : w ≠ []) (hl : Lexes rest ts) : Lexes (w ++ rest) (t.toList ++ ts) :=
  Lexes.step h hw hl

/-- the text does not begin with white space -/
def NoWhite : Txt → Prop
  | [] => True
  | c :: _ => white c = false

theorem lexes_space {rest : Txt} {ts : List Tok} (hr : NoWhite rest) (hl : Lexes rest ts) : Lexes (' ' :: rest) ts := by
  refine Lexes.step (m := [' ']) (t := none) ?_ (by simp) hl
  have hw : mWhite (' ' :: rest) = [' '] := by
    unfold mWhite
    rw [List.takeWhile_cons_of_pos (by decide)]
    cases rest with
    | nil => rfl
    | cons c r => rw [List.takeWhile_cons_of_neg (by simp [show white c = false from hr])]
  have hl : mLiteral (' ' :: rest) = [] := by
    unfold mLiteral
    split
    · rename_i e; cases e
    · rename_i e; cases e; rfl
    · rfl
  have hn : mNumber (' ' :: rest) = [] := rfl
  have hm : ∀ (e : Char) (w : Txt), (e == ' ') = false → mWord (e :: w) (' ' :: rest) = [] := fun d w hd => mWord_ne hd
  simp [lexOne, rules, matchLen, hl, hn, hw, hm '$' _ (by decide), hm '(' _ (by decide), hm ')' _ (by decide), hm '~' _ (by decide), hm '&' _ (by decide),
      hm '|' _ (by decide), hm '=' _ (by decide), hm '<' _ (by decide), hm '>' _ (by decide), hm '*' _ (by decide), hm '+' _ (by decide)]

theorem lexes_cmp (c : Cmp) {rest : Txt} {ts : List Tok} (hr : NoWhite rest) (hl : Lexes rest ts) : Lexes (cmpTxt c ++ rest) (.cmp c :: ts) := by
  cases c
  · exact lexes_space (by show white _ = _; decide) (Lexes.step (m := ['=']) (t := some (.cmp .eq)) rfl (by simp) (lexes_space hr hl))
  · exact lexes_space (by show white _ = _; decide) (Lexes.step (m := ['<', '=']) (t := some (.cmp .le)) rfl (by simp) (lexes_space hr hl))
  · exact lexes_space (by show white _ = _; decide) (Lexes.step (m := ['<']) (t := some (.cmp .lt)) rfl (by simp) (lexes_space hr hl))
  · exact lexes_space (by show white _ = _; decide) (Lexes.step (m := ['>', '=']) (t := some (.cmp .ge)) rfl (by simp) (lexes_space hr hl))
  · exact lexes_space (by show white _ = _; decide) (Lexes.step (m := ['>']) (t := some (.cmp .gt)) rfl (by simp) (lexes_space hr hl))

/-! ## no text begins with white space -/

theorem noWhite_app {a b : Txt} (ha : NoWhite a) (hne : a ≠ []) : NoWhite (a ++ b) := by
  cases a with
  | nil => exact absurd rfl hne
  | cons c r => exact ha

theorem lit_noWhite {l : Lit String} (h : isName l.var = true) : NoWhite (litTxt l) ∧ litTxt l ≠ [] := by
  obtain ⟨c, cs, e, h1, h2⟩ := isName_cases h
  obtain ⟨x, p⟩ := l
  cases p with
  | true => simp only [litTxt] at e ⊢; rw [e]; exact ⟨start_white h1, by simp⟩
  | false => exact ⟨by show white _ = _; decide, by simp [litTxt]⟩

theorem int_noWhite (z : Int) : NoWhite (intTxt z) ∧ intTxt z ≠ [] := by
  obtain ⟨h1, h2⟩ := digits_ok z.natAbs
  unfold intTxt
  split
  · exact ⟨by show white _ = _; decide, by simp⟩
  · refine ⟨?_, h1⟩
    cases hd : Nat.toDigits 10 z.natAbs with
    | nil => exact absurd hd h1
    | cons c cs =>
      rw [hd] at h2
      exact start_white (by simp [start, digit_part c (h2 c List.mem_cons_self)])

theorem term_noWhite {t : Int × Lit String} (h : isName t.2.var = true) : NoWhite (termTxt t) ∧ termTxt t ≠ [] := by
  unfold termTxt
  split
  · exact ⟨noWhite_app (int_noWhite _).1 (int_noWhite _).2, by simp⟩
  · exact lit_noWhite h

theorem sum_noWhite : ∀ {ts : List (Int × Lit String)}, ts ≠ [] → (∀ t ∈ ts, isName t.2.var = true) → NoWhite (sumTxt ts) ∧ sumTxt ts ≠ []
  | [], h, _ => absurd rfl h
  | [t], _, h => term_noWhite (h t (by simp))
  | t :: u :: ts, _, h => by
    have := term_noWhite (h t (by simp))
    refine ⟨?_, ?_⟩
    · show NoWhite (termTxt t ++ _ ++ _)
      rw [List.append_assoc]; exact noWhite_app this.1 this.2
    · show termTxt t ++ _ ++ _ ≠ []
      simp [this.2]

theorem bracket_noWhite {b : Bool} {t : Txt} (h : NoWhite t ∧ t ≠ []) : NoWhite (bracketIf b t) ∧ bracketIf b t ≠ [] := by
  unfold bracketIf
  split
  · exact ⟨by show white _ = _; decide, by simp⟩
  · exact h

theorem sprintN_noWhite (r : Nat) (sym : Txt) : ∀ {fs : List (Fm String)}, fs ≠ [] → fs.getLast? ≠ some .fls → (∀ f ∈ fs, NoWhite (sprint f) ∧ sprint f ≠ []) →
    NoWhite (sprintN r sym fs) ∧ sprintN r sym fs ≠ []
  | [], h, _, _ => absurd rfl h
  | [f], _, hl, h => by
    have := bracket_noWhite (b := r ≤ rank f) (h f (by simp))
    unfold sprintN
    rw [if_neg (by rintro rfl; exact hl rfl)]
    exact this
  | f :: g :: fs, _, _, h => by
    have := bracket_noWhite (b := r ≤ rank f) (h f (by simp))
    unfold sprintN
    refine ⟨?_, ?_⟩
    · rw [List.append_assoc]; exact noWhite_app this.1 this.2
    · simp [this.2]

theorem sprint_noWhite (f : Fm String) : printable f = true → NoWhite (sprint f) ∧ sprint f ≠ [] := by
  induction f using Fm.ind with
  | hf => intro _; exact ⟨by show white _ = _; decide, by simp [sprint]⟩
  | ht => intro _; exact ⟨by show white _ = _; decide, by simp [sprint]⟩
  | hl l => intro h; unfold printable at h; unfold sprint; exact lit_noWhite h
  | hn f _ => intro _; unfold sprint; exact ⟨by show white _ = _; decide, by simp⟩
  | ha fs ih =>
    intro h
    simp only [printable, Bool.and_eq_true, decide_eq_true_eq, printableL_iff] at h
    unfold sprint
    exact sprintN_noWhite _ _ (by rintro rfl; simp at h) h.2 fun f hf => ih f hf (h.1.2 f hf)
  | ho fs ih =>
    intro h
    simp only [printable, Bool.and_eq_true, decide_eq_true_eq, printableL_iff] at h
    unfold sprint
    exact sprintN_noWhite _ _ (by rintro rfl; simp at h) h.2 fun f hf => ih f hf (h.1.2 f hf)
  | hi l r ihl _ =>
    intro h
    simp only [printable, Bool.and_eq_true] at h
    have := bracket_noWhite (b := 6 ≤ rank l) (ihl h.1)
    unfold sprint
    exact ⟨by rw [List.append_assoc]; exact noWhite_app this.1 this.2, by simp⟩
  | he l r ihl _ =>
    intro h
    simp only [printable, Bool.and_eq_true] at h
    have := bracket_noWhite (b := 7 ≤ rank l) (ihl h.1)
    unfold sprint
    exact ⟨by rw [List.append_assoc]; exact noWhite_app this.1 this.2, by simp⟩
  | hc c k xs =>
    intro h
    simp only [printable, Bool.and_eq_true, Bool.not_eq_true', List.isEmpty_eq_false_iff, List.all_eq_true] at h
    have := sum_noWhite (ts := xs.map fun x => (1, ⟨x, true⟩)) (by simpa using h.1) (by simpa using fun x hx => (h.2 x hx).1)
    unfold sprint
    exact ⟨by rw [List.append_assoc]; exact noWhite_app this.1 this.2, by simp [this.2]⟩
  | hp c k ts =>
    intro h
    simp only [printable, Bool.and_eq_true, Bool.not_eq_true', List.isEmpty_eq_false_iff, List.all_eq_true, termOk] at h
    have := sum_noWhite (ts := ts) h.1 fun t ht => (h.2 t ht).1
    unfold sprint
    exact ⟨by rw [List.append_assoc]; exact noWhite_app this.1 this.2, by simp [this.2]⟩

/-! ## the printed text -/

theorem lexes_term {t : Int × Lit String} (h : isName t.2.var = true) {rest : Txt} {ts : List Tok} (hr : Delim rest) (hl : Lexes rest ts) : Lexes (termTxt t ++ rest) (termToks t ++ ts) := by
  unfold termTxt termToks
  split
  · rw [List.append_assoc]
    exact lexes_int _ (by show part _ = _; decide) (Lexes.step (m := ['*']) (t := some .mul) rfl (by simp) (lexes_lit h hr hl))
  · exact lexes_lit h hr hl

/-- a binary connective in blanks -/
theorem lexes_op {w : Txt} {t : Tok} (h0 : ∀ r, lexOne (w ++ r) = some (some t, w)) (hw : w ≠ [] ∧ NoWhite w) {rest : Txt} {ts : List Tok} (hr : NoWhite rest) (hl : Lexes rest ts) :
    Lexes (' ' :: (w ++ ' ' :: rest)) (t :: ts) :=
  lexes_space (noWhite_app hw.2 hw.1) (Lexes.step (h0 _) hw.1 (lexes_space hr hl))

theorem lexes_sum : ∀ {us : List (Int × Lit String)}, (∀ t ∈ us, isName t.2.var = true) → ∀ {rest : Txt} {ts : List Tok}, Delim rest → Lexes rest ts → Lexes (sumTxt us ++ rest) (sumToks us ++ ts)
  | [], _, _, _, _, hl => hl
  | [t], h, _, _, hr, hl => lexes_term (h t (by simp)) hr hl
  | t :: u :: us, h, rest, ts, hr, hl => by
    show Lexes (termTxt t ++ [' ', '+', ' '] ++ sumTxt (u :: us) ++ rest) ((termToks t ++ .add :: sumToks (u :: us)) ++ ts)
    have ih := lexes_sum (us := u :: us) (fun t ht => h t (List.mem_cons_of_mem _ ht)) hr hl
    have hn := sum_noWhite (ts := u :: us) (by simp) fun t ht => h t (List.mem_cons_of_mem _ ht)
    rw [List.append_assoc, List.append_assoc, List.append_assoc]
    exact lexes_term (h t (by simp)) (by show part _ = _; decide) (lexes_op (w := ['+']) (t := .add) (rest := sumTxt (u :: us) ++ rest) (fun _ => rfl) ⟨by simp, by show white _ = _; decide⟩ (noWhite_app hn.1 hn.2) ih)

/-- the tokens of a printed formula before a delimiter -/
def LexOk (f : Fm String) : Prop := ∀ {rest : Txt} {ts : List Tok}, Delim rest → Lexes rest ts → Lexes (sprint f ++ rest) (toks f ++ ts)

theorem lexes_bracket {f : Fm String} (h : LexOk f) (b : Bool) {rest : Txt} {ts : List Tok} (hr : Delim rest) (hl : Lexes rest ts) :
    Lexes (bracketIf b (sprint f) ++ rest) (brToks b (toks f) ++ ts) := by
  cases b with
  | false => exact h hr hl
  | true =>
    have := Lexes.step (m := ['(']) (t := some .lbr) rfl (by simp) (h (rest := ')' :: rest) (by show part _ = _; decide) (Lexes.step (m := [')']) (t := some .rbr) rfl (by simp) hl))
    simpa [bracketIf, brToks, Option.toList] using this

theorem lexes_N (r : Nat) {w : Txt} {t : Tok} (h0 : ∀ r, lexOne (w ++ r) = some (some t, w)) (hw : w ≠ [] ∧ NoWhite w) : ∀ {fs : List (Fm String)}, fs.getLast? ≠ some .fls →
    (∀ f ∈ fs, LexOk f ∧ printable f = true) → ∀ {rest : Txt} {ts : List Tok}, Delim rest → Lexes rest ts → Lexes (sprintN r w fs ++ rest) (toksN r t fs ++ ts)
  | [], _, _, _, _, _, hl => by simpa [sprintN, toksN] using hl
  | [f], hlast, h, rest, ts, hr, hl => by
    unfold sprintN toksN
    rw [if_neg (by rintro rfl; exact hlast rfl)]
    exact lexes_bracket (h f (by simp)).1 _ hr hl
  | f :: g :: fs, hlast, h, rest, ts, hr, hl => by
    have hlast' : (g :: fs).getLast? ≠ some .fls := by rwa [List.getLast?_cons_cons] at hlast
    have ih := lexes_N r h0 hw (fs := g :: fs) hlast' (fun x hx => h x (List.mem_cons_of_mem _ hx)) hr hl
    have hn := sprintN_noWhite r w (fs := g :: fs) (by simp) hlast' fun x hx => sprint_noWhite x (h x (List.mem_cons_of_mem _ hx)).2
    unfold sprintN toksN
    have := lexes_bracket (h f (by simp)).1 (r ≤ rank f) (rest := ' ' :: (w ++ ' ' :: (sprintN r w (g :: fs) ++ rest))) (by show part _ = _; decide) (lexes_op h0 hw (noWhite_app hn.1 hn.2) ih)
    simpa using this

theorem sprint_lexes (f : Fm String) : printable f = true → LexOk f := by
  induction f using Fm.ind with
  | hf => intro _ rest ts hr hl; simp only [sprint, toks]; exact Lexes.step (m := ['$', 'f', 'a', 'l', 's', 'e']) (t := some .fls) rfl (by simp) hl
  | ht => intro _ rest ts hr hl; simp only [sprint, toks]; exact Lexes.step (m := ['$', 't', 'r', 'u', 'e']) (t := some .tru) rfl (by simp) hl
  | hl l => intro h rest ts hr hl; unfold printable at h; simp only [sprint, toks]; exact lexes_lit h hr hl
  | hn f ih =>
    intro h rest ts hr hl
    unfold printable at h
    have := lexes_bracket (ih h) true hr hl
    simp only [sprint, toks]
    exact Lexes.step (m := ['~']) (t := some .not) rfl (by simp) this
  | ha fs ih =>
    intro h rest ts hr hl
    simp only [printable, Bool.and_eq_true, decide_eq_true_eq, printableL_iff] at h
    simp only [sprint, toks]
    exact lexes_N _ (fun _ => rfl) ⟨by simp, by show white _ = _; decide⟩ h.2 (fun f hf => ⟨ih f hf (h.1.2 f hf), h.1.2 f hf⟩) hr hl
  | ho fs ih =>
    intro h rest ts hr hl
    simp only [printable, Bool.and_eq_true, decide_eq_true_eq, printableL_iff] at h
    simp only [sprint, toks]
    exact lexes_N _ (fun _ => rfl) ⟨by simp, by show white _ = _; decide⟩ h.2 (fun f hf => ⟨ih f hf (h.1.2 f hf), h.1.2 f hf⟩) hr hl
  | hi l r ihl ihr =>
    intro h rest ts hr hl
    simp only [printable, Bool.and_eq_true] at h
    have hn := bracket_noWhite (b := 6 ≤ rank r) (sprint_noWhite r h.2)
    have := lexes_bracket (ihl h.1) (6 ≤ rank l) (rest := ' ' :: (['=', '>'] ++ ' ' :: (bracketIf (6 ≤ rank r) (sprint r) ++ rest))) (by show part _ = _; decide)
      (lexes_op (t := .impl) (fun _ => rfl) ⟨by simp, by show white _ = _; decide⟩ (noWhite_app hn.1 hn.2) (lexes_bracket (ihr h.2) (6 ≤ rank r) hr hl))
    simpa [sprint, toks] using this
  | he l r ihl ihr =>
    intro h rest ts hr hl
    simp only [printable, Bool.and_eq_true] at h
    have hn := bracket_noWhite (b := 7 ≤ rank r) (sprint_noWhite r h.2)
    have := lexes_bracket (ihl h.1) (7 ≤ rank l) (rest := ' ' :: (['<', '=', '>'] ++ ' ' :: (bracketIf (7 ≤ rank r) (sprint r) ++ rest))) (by show part _ = _; decide)
      (lexes_op (t := .equiv) (fun _ => rfl) ⟨by simp, by show white _ = _; decide⟩ (noWhite_app hn.1 hn.2) (lexes_bracket (ihr h.2) (7 ≤ rank r) hr hl))
    simpa [sprint, toks] using this
  | hc c k xs =>
    intro h rest ts hr hl
    simp only [printable, Bool.and_eq_true, Bool.not_eq_true', List.isEmpty_eq_false_iff, List.all_eq_true] at h
    have := lexes_sum (us := xs.map fun x => (1, ⟨x, true⟩)) (by simpa using fun x hx => (h.2 x hx).1) (rest := cmpTxt c ++ (intTxt k ++ rest)) (by cases c <;> (show part _ = _; decide))
      (lexes_cmp c (noWhite_app (int_noWhite k).1 (int_noWhite k).2) (lexes_int k hr hl))
    simpa [sprint, toks] using this
  | hp c k us =>
    intro h rest ts hr hl
    simp only [printable, Bool.and_eq_true, Bool.not_eq_true', List.isEmpty_eq_false_iff, List.all_eq_true, termOk] at h
    have := lexes_sum (us := us) (fun t ht => (h.2 t ht).1) (rest := cmpTxt c ++ (intTxt k ++ rest)) (by cases c <;> (show part _ = _; decide))
      (lexes_cmp c (noWhite_app (int_noWhite k).1 (int_noWhite k).2) (lexes_int k hr hl))
    simpa [sprint, toks] using this

/-- the tokens of a printed formula -/
theorem lex_sprint {f : Fm String} (h : printable f = true) : lex (sprint f) = some (toks f) := by
  have := (sprint_lexes f h (rest := []) trivial .nil).lex
  simpa using this

end Verif.Parser
