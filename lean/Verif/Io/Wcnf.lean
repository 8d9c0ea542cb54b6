import Verif.Io.Dimacs
/-!
# Reading MaxSAT problems (C65)

Model of /repo/maxsat/reader.go on texts.  A text is a list of characters of one byte each.  The result is the list of calls on the MaxSAT solver, with the way in which
the reader ended.
-/
namespace Verif.Wcnf
open Verif Verif.Tree Verif.Io

/-! ## model -/

/-- `strconv.Atoi` with 64 bits: value and success; values out of range are replaced by the next one in range (`ParseInt`) -/
def atoiAbs (neg : Bool) (ds : Txt) : Int × Bool :=
  if ds = [] ∨ ds.all Char.isDigit = false then (0, false)
  else if neg then (if Nat.ofDigitChars 10 ds 0 ≤ 2 ^ 63 then (-(Nat.ofDigitChars 10 ds 0 : Int), true) else (-(2 ^ 63 : Int), false))
  else (if Nat.ofDigitChars 10 ds 0 < 2 ^ 63 then ((Nat.ofDigitChars 10 ds 0 : Int), true) else ((2 ^ 63 - 1 : Int), false))

def atoi : Txt → Int × Bool
  | '-' :: ds => atoiAbs true ds
  | '+' :: ds => atoiAbs false ds
  | ds => atoiAbs false ds

/-- `strings.Split(t, " ")`; `cur` is the current part, reversed -/
def splitAux : Txt → Txt → List Txt
  | cur, [] => [cur.reverse]
  | cur, c :: cs => if c = ' ' then cur.reverse :: splitAux [] cs else splitAux (c :: cur) cs
def split (t : Txt) : List Txt := splitAux [] t

/-- `strings.TrimSpace` -/
def trim (t : Txt) : Txt := ((t.dropWhile isSpace).reverse.dropWhile isSpace).reverse

/-- `int(math.Abs(float64(n)))`, reader.go:55, of a number with absolute value `n`: rounded to 53 bits, ties to even. For results of 2^63 (where the conversion to `int`
depends on the machine) the model takes 2^63. -/
def abs53 (n : Nat) : Nat :=
  if n < 2 ^ 53 then n
  else
    let u := 2 ^ (n.log2 - 52)
    (if 2 * (n % u) < u ∨ (2 * (n % u) = u ∧ n / u % 2 = 0) then n / u else n / u + 1) * u

/-- reader.go:55 -/
def name (n : Nat) : Txt := 'v' :: decimal (abs53 n)

/-- calls on the solver -/
inductive Call where
  | hard (f : Fm Txt)
  | soft (f : Fm Txt) (w : Int)
deriving DecidableEq

/-- how the reader ends: without error, with an error, with a panic -/
inductive End where
  | ok
  | error
  | panic
deriving DecidableEq

/-- reader.go:49-58: the operands of the clause; parts that are empty leave the zero value of `Formula`, which is the constant false (formula.go:169, 232, factory.go:124).
`none`: error -/
def literals : List Txt → Option (List (Fm Txt))
  | [] => some []
  | w :: ws =>
    if w = [] then (literals ws).map (.fls :: ·)
    else if (atoi w).2 then (literals ws).map (.lit ⟨name (atoi w).1.natAbs, decide ((atoi w).1 > 0)⟩ :: ·)
    else none

/-- reader.go:37-66: one line. `AddSoftFormula` (solver.go:177-180) refuses weights below 1; the error is ignored. -/
def readLine (cons : Bool) (pure : Bool) (top : Int) (l : Txt) : List Call × End :=
  let tokens := split (trim l)
  let w := atoi (tokens.headD [])
  if w.2 = false then ([], .error)
  else if pure = false ∧ tokens.length < 2 then ([], .panic)
  else match literals ((if pure then tokens else tokens.tail).dropLast) with
    | none => ([], .error)
    | some fs =>
      if pure then ([.soft (tOr cons fs) 1], .ok)
      else if w.1 = top then ([.hard (tOr cons fs)], .ok)
      else if w.1 < 1 then ([], .ok)
      else ([.soft (tOr cons fs) w.1], .ok)

/-- reader.go:37-66: the loop over the lines -/
def readLines (cons : Bool) (pure : Bool) (top : Int) : List Txt → List Call × End
  | [] => ([], .ok)
  | l :: ls =>
    match readLine cons pure top l with
    | (cs, .ok) => (cs ++ (readLines cons pure top ls).1, (readLines cons pure top ls).2)
    | r => r

/-- reader.go:28-31 -/
def topOf (l : Txt) : Int := match (split (trim l))[4]? with
  | some w => (atoi w).1
  | none => -1

/-- reader.go:23-36: search for the header; result: `pureMaxSat`, `hardWeight` and the lines that the second loop reads. The scanner ends at a line of `max` bytes
(65536) or more. If it ends within the first loop, the first call of `Scan` in the second loop returns the content of its buffer, the begin of the long line. -/
def start (max : Nat) : List Txt → Bool × Int × List Txt
  | [] => (false, -1, [])
  | l :: ls =>
    if max ≤ l.length then (false, -1, [dropCR (l.take max)])
    else if "p wcnf".toList.isPrefixOf (dropCR l) then (false, topOf (dropCR l), (ls.takeWhile fun l => decide (l.length < max)).map dropCR)
    else if "p cnf".toList.isPrefixOf (dropCR l) then (true, -1, (ls.takeWhile fun l => decide (l.length < max)).map dropCR)
    else start max ls

/-- reader.go:17-68 `ReadDimacsToSolver`: the content of the file is read -/
def read (cons : Bool) (max : Nat) (t : Txt) : List Call × End :=
  readLines cons (start max (rawLines t)).1 (start max (rawLines t)).2.1 (start max (rawLines t)).2.2

/-! ## specification: MaxSAT problems and their files -/

/-- the kinds of problems -/
inductive Head where
  | cnf
  | wcnf
  | wcnfTop (top : Nat)
deriving DecidableEq

/-- a clause: weight, and literals given by number and sign -/
abbrev Cls := Nat × List (Nat × Bool)

/-- a problem: comments, kind, number of variables, clauses (the weights are not used for `cnf`) -/
structure Problem where
  comments : List Txt
  head : Head
  nv : Nat
  clauses : List Cls

def litWord (l : Nat × Bool) : Txt := (if l.2 then [] else ['-']) ++ decimal l.1
def clsWords (h : Head) (c : Cls) : List Txt := (if h = .cnf then [] else [decimal c.1]) ++ c.2.map litWord ++ [['0']]
def headLine (p : Problem) : Txt :=
  match p.head with
  | .cnf => "p cnf ".toList ++ decimal p.nv ++ ' ' :: decimal p.clauses.length
  | .wcnf => "p wcnf ".toList ++ decimal p.nv ++ ' ' :: decimal p.clauses.length
  | .wcnfTop t => "p wcnf ".toList ++ decimal p.nv ++ ' ' :: decimal p.clauses.length ++ ' ' :: decimal t
def lines (p : Problem) : List Txt := p.comments ++ headLine p :: p.clauses.map fun c => join (clsWords p.head c)
/-- the file of the problem -/
def file (p : Problem) : Txt := (lines p).flatMap (· ++ ['\n'])

structure Problem.Ok (p : Problem) : Prop where
  comments : ∀ l ∈ p.comments, l.head? = some 'c' ∧ '\n' ∉ l
  vars : ∀ c ∈ p.clauses, ∀ l ∈ c.2, 1 ≤ l.1 ∧ l.1 ≤ 2 ^ 53
  weights : p.head ≠ .cnf → ∀ c ∈ p.clauses, 1 ≤ c.1 ∧ c.1 < 2 ^ 63
  top : ∀ t, p.head = .wcnfTop t → t < 2 ^ 63

/-- the clause under an assignment of the names -/
def Cls.holds (v : Txt → Bool) (c : Cls) : Prop := ∃ l ∈ c.2, v ('v' :: decimal l.1) = l.2

/-- the call that a clause demands -/
def Demands (h : Head) (c : Cls) : Call → Prop
  | .hard f => h = .wcnfTop c.1 ∧ ∀ v, f.eval v = true ↔ c.holds v
  | .soft f w => h ≠ .wcnfTop c.1 ∧ w = (if h = .cnf then 1 else (c.1 : Int)) ∧ ∀ v, f.eval v = true ↔ c.holds v

/-! ## lemmas -/

theorem atoiAbs_decimal {n : Nat} (h : n < 2 ^ 63) : atoiAbs false (decimal n) = ((n : Int), true) := by
  unfold atoiAbs
  rw [if_neg]
  · simp only [Bool.false_eq_true, if_false]
    rw [show Nat.ofDigitChars 10 (decimal n) 0 = n by simp [decimal, Nat.ofDigitChars_toDigits], if_pos h]
  · rintro (h | h)
    · exact decimal_ne n h
    · rw [List.all_eq_true.mpr fun c hc => decimal_digit hc] at h; cases h

theorem atoiAbs_neg {n : Nat} (h : n < 2 ^ 63) : atoiAbs true (decimal n) = (-(n : Int), true) := by
  unfold atoiAbs
  rw [if_neg]
  · simp only [if_true]
    rw [show Nat.ofDigitChars 10 (decimal n) 0 = n by simp [decimal, Nat.ofDigitChars_toDigits], if_pos (by omega)]
  · rintro (h | h)
    · exact decimal_ne n h
    · rw [List.all_eq_true.mpr fun c hc => decimal_digit hc] at h; cases h

theorem atoi_decimal {n : Nat} (h : n < 2 ^ 63) : atoi (decimal n) = ((n : Int), true) := by
  rw [← atoiAbs_decimal h]
  cases hd : decimal n with
  | nil => exact absurd hd (decimal_ne n)
  | cons d ds =>
    have hdig : d.isDigit := decimal_digit (n := n) (by rw [hd]; simp)
    unfold atoi
    split
    · next h => injection h with h; exact absurd h (digit_ne hdig (by decide))
    · next h => injection h with h; exact absurd h (digit_ne hdig (by decide))
    · rfl

theorem atoi_neg {n : Nat} (h : n < 2 ^ 63) : atoi ('-' :: decimal n) = (-(n : Int), true) := atoiAbs_neg h

theorem splitAux_word {w : Txt} (hw : ' ' ∉ w) (cur rest : Txt) : splitAux cur (w ++ rest) = splitAux (w.reverse ++ cur) rest := by
  induction w generalizing cur with
  | nil => rfl
  | cons c w ih =>
    rw [List.cons_append, splitAux, if_neg (by rintro rfl; simp at hw), ih (by simp at hw; exact hw.2)]
    simp

theorem split_word {w : Txt} (hw : ' ' ∉ w) (rest : Txt) : split (w ++ ' ' :: rest) = w :: split rest := by
  unfold split
  rw [splitAux_word hw, splitAux, if_pos rfl]
  simp

theorem split_last {w : Txt} (hw : ' ' ∉ w) : split w = [w] := by
  have := splitAux_word hw [] []
  unfold split
  rw [List.append_nil] at this
  rw [this]
  simp [splitAux]

theorem split_join : ∀ {ws : List Txt}, ws ≠ [] → (∀ w ∈ ws, ' ' ∉ w) → split (join ws) = ws
  | [], h, _ => absurd rfl h
  | [w], _, hw => split_last (hw w (by simp))
  | w :: w2 :: ws, _, hw => by
    rw [join, split_word (hw w (by simp)), split_join (by simp) fun w h => hw w (by simp [h])]
    simp

theorem trim_id {t : Txt} (h1 : ∀ c ∈ t.head?, isSpace c = false) (h2 : ∀ c ∈ t.getLast?, isSpace c = false) : trim t = t := by
  unfold trim
  have e1 : t.dropWhile isSpace = t := by
    cases t with
    | nil => rfl
    | cons c t => rw [List.dropWhile_cons, if_neg (by simpa using h1 c (by simp))]
  rw [e1]
  have e2 : t.reverse.dropWhile isSpace = t.reverse := by
    cases hr : t.reverse with
    | nil => rfl
    | cons c r =>
      have : c ∈ t.getLast? := by rw [← List.head?_reverse, hr]; simp
      rw [List.dropWhile_cons, if_neg (by simpa using h2 c this)]
  rw [e2, List.reverse_reverse]

theorem abs53_le {n : Nat} (h : n ≤ 2 ^ 53) : abs53 n = n := by
  rcases Nat.lt_or_ge n (2 ^ 53) with h' | h'
  · rw [abs53, if_pos h']
  · obtain rfl : n = 2 ^ 53 := by omega
    decide +kernel

theorem join_last {ws : List Txt} {w : Txt} : ∃ p, join (ws ++ [w]) = p ++ w := by
  induction ws with
  | nil => exact ⟨[], rfl⟩
  | cons x ws ih =>
    obtain ⟨p, hp⟩ := ih
    refine ⟨x ++ ' ' :: p, ?_⟩
    rw [List.cons_append, join]
    · rw [hp]; simp
    · simp

theorem litWord_char {l : Nat × Bool} {c : Char} (h : c ∈ litWord l) : c = '-' ∨ c.isDigit := by
  unfold litWord at h
  rcases List.mem_append.1 h with h | h
  · split at h <;> simp_all
  · exact .inr (decimal_digit h)

theorem clsWords_char {h : Head} {c : Cls} {w : Txt} (hw : w ∈ clsWords h c) {d : Char} (hd : d ∈ w) : d = '-' ∨ d.isDigit := by
  unfold clsWords at hw
  simp only [List.mem_append, List.mem_map, List.mem_singleton] at hw
  rcases hw with (hw | ⟨l, -, rfl⟩) | rfl
  · split at hw
    · cases hw
    · simp at hw; subst hw; exact .inr (decimal_digit hd)
  · exact litWord_char hd
  · simp at hd; subst hd; exact .inr (by decide)

theorem clsWords_ne {h : Head} {c : Cls} : ∀ w ∈ clsWords h c, w ≠ [] := by
  intro w hw
  unfold clsWords at hw
  simp only [List.mem_append, List.mem_map, List.mem_singleton] at hw
  rcases hw with (hw | ⟨l, -, rfl⟩) | rfl
  · split at hw
    · cases hw
    · simp at hw; subst hw; exact decimal_ne _
  · intro h; exact decimal_ne _ (List.append_eq_nil_iff.1 h).2
  · simp

theorem dash_space {d : Char} (h : d = '-' ∨ d.isDigit) : isSpace d = false := by
  rcases h with rfl | h
  · decide
  · exact digit_space h

theorem clsWords_space {h : Head} {c : Cls} : ∀ w ∈ clsWords h c, ' ' ∉ w := fun w hw hd => by
  have := dash_space (clsWords_char hw hd); revert this; decide

theorem join_head {w : Txt} {ws : List Txt} (hw : w ≠ []) : (join (w :: ws)).head? = w.head? := by
  cases ws with
  | nil => rfl
  | cons x ws => rw [join]; cases w <;> simp at hw ⊢; simp

theorem clsLine_last (h : Head) (c : Cls) : (join (clsWords h c)).getLast? = some '0' := by
  unfold clsWords
  obtain ⟨p, hp⟩ := join_last (ws := (if h = .cnf then [] else [decimal c.1]) ++ c.2.map litWord) (w := ['0'])
  rw [hp]; simp

theorem clsLine_trim (h : Head) (c : Cls) : trim (join (clsWords h c)) = join (clsWords h c) := by
  refine trim_id (fun d hd => ?_) fun d hd => ?_
  · cases hw : clsWords h c with
    | nil => rw [hw] at hd; cases hd
    | cons w ws =>
      have hm : w ∈ clsWords h c := by rw [hw]; simp
      rw [hw, join_head (clsWords_ne w hm)] at hd
      exact dash_space (clsWords_char hm (List.mem_of_mem_head? hd))
  · rw [clsLine_last] at hd
    simp at hd; subst hd; decide

theorem clsLine_dropCR (h : Head) (c : Cls) : dropCR (join (clsWords h c)) = join (clsWords h c) := by
  unfold dropCR
  rw [clsLine_last, if_neg (by decide)]

theorem literals_words {ls : List (Nat × Bool)} (h : ∀ l ∈ ls, 1 ≤ l.1 ∧ l.1 ≤ 2 ^ 53) :
    literals (ls.map litWord) = some (ls.map fun l => .lit ⟨'v' :: decimal l.1, l.2⟩) := by
  induction ls with
  | nil => rfl
  | cons l ls ih =>
    obtain ⟨h1, h2⟩ := h l (by simp)
    have hn : litWord l ≠ [] := fun h => decimal_ne _ (List.append_eq_nil_iff.1 h).2
    rw [List.map_cons, literals, if_neg hn, ih fun l hl => h l (by simp [hl])]
    obtain ⟨x, b⟩ := l
    have e : atoi (litWord (x, b)) = (if b then (x : Int) else -(x : Int), true) := by
      cases b
      · exact atoi_neg (by simp only at h2; omega)
      · simpa [litWord] using atoi_decimal (n := x) (by simp only at h2; omega)
    rw [e]
    simp only [if_true, Option.map_some, List.map_cons, Option.some.injEq, List.cons.injEq, and_true, Fm.lit.injEq, Lit.mk.injEq, name]
    simp only at h1 h2
    cases b <;> simp [abs53_le h2] <;> omega

theorem clause_eval (cons : Bool) (c : Cls) (v : Txt → Bool) : (tOr cons (c.2.map fun l => Fm.lit ⟨'v' :: decimal l.1, l.2⟩)).eval v = true ↔ c.holds v := by
  rw [eval_tOr]
  simp only [List.any_map, List.any_eq_true, Function.comp, Fm.eval, Cls.holds, Lit.eval]
  refine exists_congr fun l => and_congr_right fun _ => ?_
  cases l.2 <;> cases v ('v' :: decimal l.1) <;> simp

/-- `pureMaxSat` and `hardWeight` -/
def Head.pure : Head → Bool
  | .cnf => true
  | _ => false
def Head.top : Head → Int
  | .wcnfTop t => t
  | _ => -1

theorem readLine_cls (cons : Bool) {p : Problem} (hp : p.Ok) {c : Cls} (hc : c ∈ p.clauses) :
    ∃ k, readLine cons p.head.pure p.head.top (join (clsWords p.head c)) = ([k], .ok) ∧ Demands p.head c k := by
  have hs : split (trim (join (clsWords p.head c))) = clsWords p.head c := by
    rw [clsLine_trim, split_join (by unfold clsWords; simp) clsWords_space]
  unfold readLine
  simp only [hs]
  have hl := literals_words (hp.vars c hc)
  cases hh : p.head with
  | cnf =>
    have ht : clsWords .cnf c = c.2.map litWord ++ [['0']] := by simp [clsWords]
    have hd : (atoi ((clsWords .cnf c).headD [])).2 = true := by
      rw [ht]
      cases hc2 : c.2 with
      | nil => decide
      | cons l ls =>
        have := hp.vars c hc l (by rw [hc2]; simp)
        obtain ⟨x, b⟩ := l
        show (atoi (litWord (x, b))).2 = true
        cases b
        · rw [show litWord (x, false) = '-' :: decimal x from rfl, atoi_neg (by simp only at this; omega)]
        · rw [show litWord (x, true) = decimal x from rfl, atoi_decimal (by simp only at this; omega)]
    rw [if_neg (by rw [hd]; simp), if_neg (by simp [Head.pure])]
    simp only [Head.pure, if_true, ht, List.dropLast_concat, hl]
    exact ⟨_, rfl, by simp, by simp, fun v => clause_eval cons c v⟩
  | wcnf =>
    obtain ⟨h1, h2⟩ := hp.weights (by simp [hh]) c hc
    have ht : clsWords .wcnf c = decimal c.1 :: (c.2.map litWord ++ [['0']]) := by simp [clsWords]
    rw [ht]
    simp only [List.headD_cons, atoi_decimal h2, Head.pure, Head.top, List.tail_cons, List.dropLast_concat, hl]
    simp only [Bool.false_eq_true, Bool.true_eq_false, reduceCtorEq, if_false, hl, List.length_cons, List.length_append, true_and]
    rw [if_neg (by simp), List.dropLast_concat, hl]
    simp only
    rw [if_neg (by omega)]
    exact ⟨_, rfl, by simp, by simp, fun v => clause_eval cons c v⟩
  | wcnfTop t =>
    obtain ⟨h1, h2⟩ := hp.weights (by simp [hh]) c hc
    have ht : clsWords (.wcnfTop t) c = decimal c.1 :: (c.2.map litWord ++ [['0']]) := by simp [clsWords]
    rw [ht]
    simp only [List.headD_cons, atoi_decimal h2, Head.pure, Head.top, List.tail_cons, List.dropLast_concat, hl]
    simp only [Bool.false_eq_true, Bool.true_eq_false, reduceCtorEq, if_false, hl, List.length_cons, List.length_append, true_and]
    rw [if_neg (by simp), List.dropLast_concat, hl]
    simp only
    by_cases he : (c.1 : Int) = t
    · rw [if_pos he]
      exact ⟨_, rfl, by rw [show c.1 = t by omega], fun v => clause_eval cons c v⟩
    · rw [if_neg he, if_neg (by omega)]
      exact ⟨_, rfl, by simp; omega, by simp, fun v => clause_eval cons c v⟩

theorem readLines_cls (cons : Bool) {p : Problem} (hp : p.Ok) : ∀ {cs : List Cls}, (∀ c ∈ cs, c ∈ p.clauses) →
    ∃ ks, readLines cons p.head.pure p.head.top (cs.map fun c => join (clsWords p.head c)) = (ks, .ok) ∧ List.Forall₂ (Demands p.head) cs ks
  | [], _ => ⟨[], rfl, .nil⟩
  | c :: cs, h => by
    obtain ⟨k, h1, h2⟩ := readLine_cls cons hp (h c (by simp))
    obtain ⟨ks, h3, h4⟩ := readLines_cls cons hp (cs := cs) fun c hc => h c (by simp [hc])
    refine ⟨k :: ks, ?_, .cons h2 h4⟩
    rw [List.map_cons, readLines, h1]
    simp only [h3]
    rfl

theorem headLine_eq (p : Problem) : ∃ ws : List Txt, headLine p = join ws ∧
    ws = ['p'] :: (if p.head = .cnf then "cnf".toList else "wcnf".toList) :: decimal p.nv :: decimal p.clauses.length ::
      (match p.head with | .wcnfTop t => [decimal t] | _ => []) := by
  refine ⟨_, ?_, rfl⟩
  unfold headLine
  cases p.head <;> simp [join]

theorem headLine_char {p : Problem} {c : Char} (h : c ∈ headLine p) : c ∈ "pcnfw ".toList ∨ c.isDigit := by
  unfold headLine at h
  cases hh : p.head <;> rw [hh] at h <;> simp only [List.mem_append, List.mem_cons, or_assoc] at h
  · rcases h with h | h | h | h
    · left; revert h; simp; tauto
    · exact .inr (decimal_digit h)
    · left; simp [h]
    · exact .inr (decimal_digit h)
  · rcases h with h | h | h | h
    · left; revert h; simp; tauto
    · exact .inr (decimal_digit h)
    · left; simp [h]
    · exact .inr (decimal_digit h)
  · rcases h with h | h | h | h | h | h
    · left; revert h; simp; tauto
    · exact .inr (decimal_digit h)
    · left; simp [h]
    · exact .inr (decimal_digit h)
    · left; simp [h]
    · exact .inr (decimal_digit h)

theorem headLine_last (p : Problem) : ∃ c ∈ (headLine p).getLast?, c.isDigit := by
  have key : ∀ (a : Txt) (n : Nat), ∃ c ∈ (a ++ ' ' :: decimal n).getLast?, c.isDigit := by
    intro a n
    have hne := decimal_ne n
    refine ⟨(decimal n).getLast hne, ?_, decimal_digit (List.getLast_mem hne)⟩
    rw [List.getLast?_append, List.getLast?_cons, List.getLast?_eq_getLast_of_ne_nil hne]
    simp
  unfold headLine
  cases p.head
  · exact key _ _
  · exact key _ _
  · rename_i t
    have := key ("p wcnf ".toList ++ decimal p.nv ++ ' ' :: decimal p.clauses.length) t
    simpa using this

theorem headLine_dropCR (p : Problem) : dropCR (headLine p) = headLine p := by
  obtain ⟨c, h1, h2⟩ := headLine_last p
  unfold dropCR
  rw [Option.mem_def.1 h1, if_neg]
  simp only [Option.some.injEq]
  exact digit_ne h2 (by decide)

theorem headLine_trim (p : Problem) : trim (headLine p) = headLine p := by
  refine trim_id (fun d hd => ?_) fun d hd => ?_
  · have : (headLine p).head? = some 'p' := by unfold headLine; cases p.head <;> rfl
    rw [this] at hd; simp at hd; subst hd; decide
  · obtain ⟨c, h1, h2⟩ := headLine_last p
    rw [Option.mem_def.1 h1] at hd; simp at hd; subst hd; exact digit_space h2

theorem decimal_space (n : Nat) : ' ' ∉ decimal n := fun h => by
  have := digit_space (decimal_digit h); revert this; decide

theorem topOf_headLine {p : Problem} (hp : p.Ok) (hc : p.head ≠ .cnf) : topOf (headLine p) = p.head.top := by
  obtain ⟨ws, h1, h2⟩ := headLine_eq p
  unfold topOf
  rw [headLine_trim, h1, split_join]
  · rw [h2]
    cases hh : p.head with
    | cnf => exact absurd hh hc
    | wcnf => rfl
    | wcnfTop t =>
      simp [Head.top, atoi_decimal (hp.top t hh)]
  · rw [h2]; simp
  · rw [h2]
    intro w hw
    simp only [List.mem_cons] at hw
    rcases hw with rfl | rfl | rfl | rfl | hw
    · decide
    · split <;> decide
    · exact decimal_space _
    · exact decimal_space _
    · split at hw
      · simp at hw; subst hw; exact decimal_space _
      · cases hw

theorem start_comments {max : Nat} {cs ls : List Txt} (h : ∀ l ∈ cs, l.head? = some 'c') (hm : ∀ l ∈ cs, l.length < max) : start max (cs ++ ls) = start max ls := by
  induction cs with
  | nil => rfl
  | cons l cs ih =>
    have h1 := h l (by simp)
    have h2 : (dropCR l).head? = some 'c' ∨ dropCR l = [] := by
      unfold dropCR
      split
      · cases l with
        | nil => exact .inr rfl
        | cons a l => cases l with
          | nil => exact .inr rfl
          | cons b l => left; simpa using h1
      · exact .inl h1
    have h3 : ∀ w : Txt, w.head? = some 'p' → w.isPrefixOf (dropCR l) = false := by
      intro w hw
      cases w with
      | nil => cases hw
      | cons a w =>
        simp at hw; subst hw
        rcases h2 with h2 | h2
        · cases hd : dropCR l with
          | nil => rfl
          | cons b t => rw [hd] at h2; simp at h2; subst h2; simp [List.isPrefixOf]
        · rw [h2]; rfl
    rw [List.cons_append, start, if_neg (by have := hm l (by simp); omega), h3 _ (by decide), h3 _ (by decide)]
    exact ih (fun l hl => h l (by simp [hl])) fun l hl => hm l (by simp [hl])

theorem lines_nl {p : Problem} (hp : p.Ok) : ∀ l ∈ lines p, '\n' ∉ l := by
  intro l hl hc
  unfold lines at hl
  rcases List.mem_append.1 hl with hl | hl
  · exact (hp.comments l hl).2 hc
  · rcases List.mem_cons.1 hl with rfl | hl
    · rcases headLine_char hc with h | h <;> revert h <;> decide
    · obtain ⟨c, -, rfl⟩ := List.mem_map.1 hl
      rcases join_char hc with h | ⟨w, hw, h⟩
      · revert h; decide
      · rcases clsWords_char hw h with h | h <;> revert h <;> decide

theorem takeWhile_self {β : Type} {q : β → Bool} {xs : List β} (h : ∀ x ∈ xs, q x = true) : xs.takeWhile q = xs := by
  induction xs with
  | nil => rfl
  | cons x xs ih => rw [List.takeWhile_cons, if_pos (h x (by simp)), ih fun y hy => h y (by simp [hy])]

theorem start_lines {p : Problem} (hp : p.Ok) {max : Nat} (hm : ∀ l ∈ lines p, l.length < max) :
    start max (lines p) = (p.head.pure, p.head.top, p.clauses.map fun c => join (clsWords p.head c)) := by
  unfold lines at hm ⊢
  rw [start_comments (fun l hl => (hp.comments l hl).1) fun l hl => hm l (by simp [hl])]
  have htw : ((p.clauses.map fun c => join (clsWords p.head c)).takeWhile fun l => decide (l.length < max)) = p.clauses.map fun c => join (clsWords p.head c) :=
    takeWhile_self fun l hl => by simpa using hm l (List.mem_append_right _ (List.mem_cons_of_mem _ hl))
  have hcr : (p.clauses.map fun c => join (clsWords p.head c)).map dropCR = p.clauses.map fun c => join (clsWords p.head c) := by
    rw [List.map_map]; exact List.map_congr_left fun c _ => clsLine_dropCR _ c
  rw [start, if_neg (by have := hm (headLine p) (by simp); omega), headLine_dropCR, htw, hcr]
  by_cases hc : p.head = .cnf
  · have h1 : "p wcnf".toList.isPrefixOf (headLine p) = false := by unfold headLine; rw [hc]; rfl
    have h2 : "p cnf".toList.isPrefixOf (headLine p) = true := by unfold headLine; rw [hc]; rfl
    rw [h1, h2]
    simp [hc, Head.pure, Head.top]
  · have h1 : "p wcnf".toList.isPrefixOf (headLine p) = true := by unfold headLine; cases hh : p.head <;> first | rfl | exact absurd hh hc
    rw [h1, if_pos rfl, topOf_headLine hp hc]
    cases hh : p.head <;> first | rfl | exact absurd hh hc

/-! ## properties -/

/-- **C65**: a MaxSAT problem that is written as the format demands is read without error: one call for each clause, in their order, hard if and only if its weight is the
top weight, with its weight (1 in unweighted problems) and a formula that holds exactly under the assignments of the names that satisfy the clause. -/
theorem C65_read (cons : Bool) {p : Problem} (hp : p.Ok) {max : Nat} (hm : ∀ l ∈ lines p, l.length < max) :
    (read cons max (file p)).2 = .ok ∧ List.Forall₂ (Demands p.head) p.clauses (read cons max (file p)).1 := by
  unfold read file
  rw [rawLines_flat (lines_nl hp), start_lines hp hm]
  obtain ⟨ks, h1, h2⟩ := readLines_cls cons hp (cs := p.clauses) fun _ h => h
  simp only [h1]
  exact ⟨trivial, h2⟩

/-- **C65**: different variables have different names -/
theorem C65_names {m n : Nat} (hm : m ≤ 2 ^ 53) (hn : n ≤ 2 ^ 53) (h : name m = name n) : m = n := by
  unfold name at h
  rw [abs53_le hm, abs53_le hn] at h
  exact decimal_inj (List.cons.inj h).2

/-! ## where the code fails -/

/-- C65 (negative): two blanks in the header, and the top weight is not found: hard clauses are read as soft ones, without an error -/
theorem C65_header_false :
    read false 65536 "p wcnf 1 1 7\n7 1 0\n".toList = ([.hard (.lit ⟨['v', '1'], true⟩)], .ok) ∧
    read false 65536 "p wcnf  1 1 7\n7 1 0\n".toList = ([.soft (.lit ⟨['v', '1'], true⟩) 7], .ok) := by decide +kernel

/-- C65 (negative): a line with a single number makes the reader panic -/
theorem C65_panic_false : (read false 65536 "p wcnf 1 1 7\n7\n".toList).2 = .panic := by decide +kernel

/-- C65 (negative): comments and blank lines after the header are errors; the clauses before them are already in the solver -/
theorem C65_comment_false :
    read false 65536 "p wcnf 1 2 7\n7 1 0\nc\n7 -1 0\n".toList = ([.hard (.lit ⟨['v', '1'], true⟩)], .error) ∧
    read false 65536 "p cnf 1 1\n\n1 0\n".toList = ([], .error) := by decide +kernel

/-- C65 (negative): without the closing zero the last literal is lost, without an error -/
theorem C65_zero_false : read false 65536 "p wcnf 2 1 7\n7 1 2\n".toList = read false 65536 "p wcnf 2 1 7\n7 1 0\n".toList := by decide +kernel

/-- C65 (negative): a file without header, or with a weight below 1, is read without error and nothing is added -/
theorem C65_silent_false : read false 65536 "1 0\n".toList = ([], .ok) ∧ read false 65536 "p wcnf 1 1 7\n0 1 0\n".toList = ([], .ok) := by decide +kernel

/-- C65 (negative): a line that is too long for the scanner ends the reading; it and all clauses after it are missing, without an error -/
theorem C65_long_false (cons : Bool) {max : Nat} (hm : 13 ≤ max) {l : Txt} (hn : '\n' ∉ l) (hl : max ≤ l.length) {ls : List Txt} (hls : ∀ l ∈ ls, '\n' ∉ l) :
    read cons max (("p wcnf 1 1 7".toList :: l :: ls).flatMap (· ++ ['\n'])) = ([], .ok) := by
  unfold read
  rw [rawLines_flat (by
    intro x hx
    rcases List.mem_cons.1 hx with rfl | hx
    · decide
    · rcases List.mem_cons.1 hx with rfl | hx
      · exact hn
      · exact hls x hx)]
  have h1 : "p wcnf 1 1 7".toList.length = 12 := by decide
  rw [start, if_neg (by omega), show dropCR "p wcnf 1 1 7".toList = "p wcnf 1 1 7".toList by decide, if_pos (by decide), List.takeWhile_cons, if_neg (by simp; omega)]
  rfl

/-- C65 (negative): beyond 2^53 different variables have the same name -/
theorem C65_names_false : name (2 ^ 53 + 1) = name (2 ^ 53) := by decide +kernel

/-! ## concrete cases -/

/-- a problem with comments, hard and soft clauses -/
def exProblem : Problem := ⟨["c a comment".toList], .wcnfTop 10, 3, [(10, [(1, true), (3, false)]), (2, [(2, false)]), (10, [])]⟩

/-- `C65_read` -/
example : exProblem.Ok ∧ (∀ l ∈ lines exProblem, l.length < 65536) := by
  refine ⟨⟨by decide +kernel, by decide +kernel, fun _ => by decide +kernel, fun t h => ?_⟩, by decide +kernel⟩
  cases h; decide
example : file exProblem = "c a comment\np wcnf 3 3 10\n10 1 -3 0\n2 -2 0\n10 0\n".toList := by decide +kernel
example : (read false 65536 (file exProblem)).1.length = 3 ∧ (read false 65536 (file exProblem)).1[1]? = some (.soft (.lit ⟨['v', '2'], false⟩) 2) ∧
    (read false 65536 (file exProblem)).1[2]? = some (.hard .fls) := by decide +kernel
/-- doubled blanks within a clause do no harm: the zero value of `Formula` is false -/
example : read false 65536 "p cnf 2 1\n1  -2 0\n".toList = read false 65536 "p cnf 2 1\n1 -2 0\n".toList := by decide +kernel

end Verif.Wcnf
