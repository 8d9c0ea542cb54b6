import Verif.Factory.Tree
import Verif.Io.Dimacs
/-!
# Printing formulas and parsing them

`/repo/formula/printer.go` with the default symbols, `/repo/parser/LogicNGPropositional.g4` (lexer and parser generated by ANTLR) and the listener in
`/repo/parser/propositional_parser.go`.  Text is a list of characters.  Integers are unbounded.
-/
namespace Verif.Parser
open Verif Verif.Tree

abbrev Txt := List Char

/-! ## printing -/

/-- formula.go:168-179: the order of the sorts -/
def rank : Fm String → Nat
  | .fls => 0
  | .tru => 1
  | .lit _ => 2
  | .not _ => 3
  | .and _ => 4
  | .or _ => 5
  | .impl _ _ => 6
  | .equiv _ _ => 7
  | .cc _ _ _ => 8
  | .pbc _ _ _ => 9

/-- printer.go:88-95: a literal -/
def litTxt (l : Lit String) : Txt := (if l.pos then [] else ['~']) ++ l.var.toList

/-- `%d` -/
def intTxt (z : Int) : Txt := if z < 0 then '-' :: Nat.toDigits 10 z.natAbs else Nat.toDigits 10 z.natAbs

/-- printer.go:198-213 `formatPBComparator` -/
def cmpTxt : Cmp → Txt
  | .eq => [' ', '=', ' ']
  | .le => [' ', '<', '=', ' ']
  | .lt => [' ', '<', ' ']
  | .ge => [' ', '>', '=', ' ']
  | .gt => [' ', '>', ' ']

/-- printer.go:178-182, 186-190: one summand -/
def termTxt (t : Int × Lit String) : Txt := if t.1 ≠ 1 then intTxt t.1 ++ '*' :: litTxt t.2 else litTxt t.2

/-- printer.go:172-196 `formatPBC`: the summands -/
def sumTxt : List (Int × Lit String) → Txt
  | [] => []
  | [t] => termTxt t
  | t :: ts => termTxt t ++ [' ', '+', ' '] ++ sumTxt ts

def bracketIf (b : Bool) (t : Txt) : Txt := if b then '(' :: (t ++ [')']) else t

mutual
/-- printer.go:81-127 `toInnerString`, 129-148 `formatBracket`, `formatBinaryOperator` -/
def sprint : Fm String → Txt
  | .fls => ['$', 'f', 'a', 'l', 's', 'e']
  | .tru => ['$', 't', 'r', 'u', 'e']
  | .lit l => litTxt l
  | .not f => '~' :: '(' :: (sprint f ++ [')'])
  | .impl l r => bracketIf (6 ≤ rank l) (sprint l) ++ [' ', '=', '>', ' '] ++ bracketIf (6 ≤ rank r) (sprint r)
  | .equiv l r => bracketIf (7 ≤ rank l) (sprint l) ++ [' ', '<', '=', '>', ' '] ++ bracketIf (7 ≤ rank r) (sprint r)
  | .and fs => sprintN 4 ['&'] fs
  | .or fs => sprintN 5 ['|'] fs
  | .cc c k xs => sumTxt (xs.map fun x => (1, ⟨x, true⟩)) ++ cmpTxt c ++ intTxt k
  | .pbc c k ts => sumTxt ts ++ cmpTxt c ++ intTxt k
/-- printer.go:150-170 `formatNaryOperator`; a last operand with handle 0 (the constant false) is not written -/
def sprintN (r : Nat) (sym : Txt) : List (Fm String) → Txt
  | [] => []
  | [f] => if f = .fls then [] else bracketIf (r ≤ rank f) (sprint f)
  | f :: g :: fs => bracketIf (r ≤ rank f) (sprint f) ++ ' ' :: (sym ++ [' ']) ++ sprintN r sym (g :: fs)
end

/-! ## lexer -/

inductive Tok
  | number (t : Txt) | literal (t : Txt) | tru | fls | lbr | rbr | not | and | or | impl | equiv | mul | add | cmp (c : Cmp)
  deriving DecidableEq

/-- `[0-9]` -/
def digit (c : Char) : Bool := c.isDigit
/-- `[A-Za-z0-9_#]` -/
def part (c : Char) : Bool := c.isAlphanum || c = '_' || c = '#'
/-- `[A-Za-z0-9_@#]` -/
def start (c : Char) : Bool := part c || c = '@'
/-- `[ \t\r\n]` -/
def white (c : Char) : Bool := c = ' ' || c = '\t' || c = '\r' || c = '\n'

/-- the longest prefix that matches: LogicNGPropositional.g4:48 `NUMBER`; `[]` if there is none -/
def mNumber : Txt → Txt
  | '-' :: cs => if cs.takeWhile digit = [] then [] else '-' :: cs.takeWhile digit
  | cs => cs.takeWhile digit

/-- LogicNGPropositional.g4:49 `LITERAL` -/
def mLiteral : Txt → Txt
  | '~' :: c :: cs => if start c then '~' :: c :: cs.takeWhile part else []
  | c :: cs => if start c then c :: cs.takeWhile part else []
  | [] => []

/-- LogicNGPropositional.g4:66 `WS` -/
def mWhite (cs : Txt) : Txt := cs.takeWhile white

/-- a fixed word -/
def mWord (w cs : Txt) : Txt := if w.isPrefixOf cs then w else []

/-- LogicNGPropositional.g4:48-66: the rules in their order; each with the token it makes (`none`: skipped) -/
def rules : List ((Txt → Txt) × (Txt → Option Tok)) :=
  [(mNumber, fun t => some (.number t)), (mLiteral, fun t => some (.literal t)),
   (mWord ['$', 't', 'r', 'u', 'e'], fun _ => some .tru), (mWord ['$', 'f', 'a', 'l', 's', 'e'], fun _ => some .fls),
   (mWord ['('], fun _ => some .lbr), (mWord [')'], fun _ => some .rbr), (mWord ['~'], fun _ => some .not), (mWord ['&'], fun _ => some .and), (mWord ['|'], fun _ => some .or),
   (mWord ['=', '>'], fun _ => some .impl), (mWord ['<', '=', '>'], fun _ => some .equiv), (mWord ['*'], fun _ => some .mul), (mWord ['+'], fun _ => some .add),
   (mWord ['='], fun _ => some (.cmp .eq)), (mWord ['<', '='], fun _ => some (.cmp .le)), (mWord ['<'], fun _ => some (.cmp .lt)), (mWord ['>', '='], fun _ => some (.cmp .ge)),
   (mWord ['>'], fun _ => some (.cmp .gt)), (mWhite, fun _ => none)]

/-- length of the best match so far -/
def matchLen : Option (Option Tok × Txt) → Nat
  | none => 0
  | some b => b.2.length

/-- the first rule among those with the longest match, as ANTLR lexers do; `none`: no rule matches -/
def lexOne (cs : Txt) : Option (Option Tok × Txt) :=
  (rules.foldl (fun (best : Option (Option Tok × Txt)) r =>
    let m := r.1 cs
    if m.length > matchLen best then some (r.2 m, m) else best) none)

/-- the tokens of a text; `none`: token recognition error -/
def lexF : Nat → Txt → Option (List Tok)
  | _, [] => some []
  | 0, _ :: _ => none
  | n + 1, c :: cs => match lexOne (c :: cs) with
    | none => none
    | some (t, m) => match lexF n ((c :: cs).drop m.length) with
      | none => none
      | some ts => some (t.toList ++ ts)

def lex (cs : Txt) : Option (List Tok) := lexF cs.length cs

/-! ## parser -/

/-- LogicNGPropositional.g4:37-41 `mul`, by the tokens -/
inductive Mul
  | literal (t : Txt) | number (t : Txt) | numberLiteral (k t : Txt) | numberNumber (k t : Txt)

/-- Parse trees.  Nodes of `conj`, `disj`, `impl`, `equiv` without operator are left out: the listener does nothing at them. -/
inductive PT
  | tru | fls
  | lit (t : Txt)
  | br (t : PT)
  | cmp (ms : List Mul) (c : Cmp) (rhs : Txt)
  | neg (t : PT)
  | conj (ts : List PT)
  | disj (ts : List PT)
  | impl (l r : PT)
  | equiv (l r : PT)

/-- `mul` -/
def pMul : List Tok → Option (Mul × List Tok)
  | .number k :: .mul :: .literal t :: r => some (.numberLiteral k t, r)
  | .number k :: .mul :: .number t :: r => some (.numberNumber k t, r)
  | .number k :: .mul :: _ => none
  | .number k :: r => some (.number k, r)
  | .literal t :: r => some (.literal t, r)
  | _ => none

/-- LogicNGPropositional.g4:43-44 `add` -/
def pAdd : Nat → List Tok → Option (List Mul × List Tok)
  | 0, _ => none
  | n + 1, ts => match pMul ts with
    | none => none
    | some (m, .add :: r) => match pAdd n r with
      | none => none
      | some (ms, r) => some (m :: ms, r)
    | some (m, r) => some ([m], r)

/-- LogicNGPropositional.g4:7-12 `comparison` -/
def pCmp (n : Nat) (ts : List Tok) : Option (PT × List Tok) := match pAdd n ts with
  | some (ms, .cmp c :: .number k :: r) => some (.cmp ms c k, r)
  | _ => none

/-- The token after a literal that makes ANTLR's prediction choose `comparison` in `simp` (LogicNGPropositional.g4:14-20). -/
def cmpStart : List Tok → Bool
  | .add :: _ => true
  | .cmp _ :: _ => true
  | _ => false
/-- the same after a number -/
def numStart : List Tok → Bool
  | .mul :: _ => true
  | r => cmpStart r

/-- a conjunction with one operand only is left out -/
def conjOf : List PT → PT
  | [t] => t
  | ts => .conj ts
def disjOf : List PT → PT
  | [t] => t
  | ts => .disj ts

mutual
/-- LogicNGPropositional.g4:14-20 `simp` -/
def pSimp : Nat → List Tok → Option (PT × List Tok)
  | 0, _ => none
  | n + 1, ts => match ts with
    | .literal t :: r => if cmpStart r then pCmp n ts else some (.lit t, r)
    | .number t :: r => if numStart r then pCmp n ts else some (.lit t, r)
    | .tru :: r => some (.tru, r)
    | .fls :: r => some (.fls, r)
    | .lbr :: r => match pEquiv n r with
      | some (t, .rbr :: r) => some (.br t, r)
      | _ => none
    | _ => none
/-- LogicNGPropositional.g4:22-24 `lit` -/
def pLit : Nat → List Tok → Option (PT × List Tok)
  | 0, _ => none
  | n + 1, .not :: r => match pLit n r with
    | some (t, r) => some (.neg t, r)
    | none => none
  | n + 1, ts => pSimp n ts
/-- LogicNGPropositional.g4:26-27 `conj`: the operands -/
def pConjs : Nat → List Tok → Option (List PT × List Tok)
  | 0, _ => none
  | n + 1, ts => match pLit n ts with
    | none => none
    | some (t, .and :: r) => match pConjs n r with
      | none => none
      | some (us, r) => some (t :: us, r)
    | some (t, r) => some ([t], r)
/-- LogicNGPropositional.g4:29-30 `disj`: the operands -/
def pDisjs : Nat → List Tok → Option (List PT × List Tok)
  | 0, _ => none
  | n + 1, ts => match pConjs n ts with
    | none => none
    | some (cs, r) =>
      match r with
      | .or :: r => match pDisjs n r with
        | none => none
        | some (us, r) => some (conjOf cs :: us, r)
      | r => some ([conjOf cs], r)
/-- LogicNGPropositional.g4:32-33 `impl` -/
def pImpl : Nat → List Tok → Option (PT × List Tok)
  | 0, _ => none
  | n + 1, ts => match pDisjs n ts with
    | none => none
    | some (ds, r) =>
      match r with
      | .impl :: r => match pImpl n r with
        | none => none
        | some (u, r) => some (.impl (disjOf ds) u, r)
      | r => some (disjOf ds, r)
/-- LogicNGPropositional.g4:35-36 `equiv` -/
def pEquiv : Nat → List Tok → Option (PT × List Tok)
  | 0, _ => none
  | n + 1, ts => match pImpl n ts with
    | none => none
    | some (t, .equiv :: r) => match pEquiv n r with
      | none => none
      | some (u, r) => some (.equiv t u, r)
    | some (t, r) => some (t, r)
end

/-- LogicNGPropositional.g4:3-5 `formula` for an input with tokens; tokens after the formula are ignored -/
def pFormula (ts : List Tok) : Option PT := (pEquiv (8 * (ts.length + 1)) ts).map (·.1)

/-! ## listener -/

/-- `strconv.Atoi`, for texts of the rule `NUMBER` -/
def atoi : Txt → Int
  | '-' :: cs => -(Nat.ofDigitChars 10 cs 0 : Nat)
  | cs => (Nat.ofDigitChars 10 cs 0 : Nat)

/-- propositional_parser.go:130-139 `parseLiteral` -/
def parseLiteral : Txt → Lit String
  | '~' :: cs => ⟨String.ofList cs, false⟩
  | cs => ⟨String.ofList cs, true⟩

/-- propositional_parser.go:212-232 `ExitMul`; `none`: nil dereference -/
def exitMul : Mul → Option (Int × Lit String)
  | .literal t => some (1, parseLiteral t)
  | .number _ => none
  | .numberLiteral k t => some (atoi k, parseLiteral t)
  | .numberNumber k t => some (atoi t, parseLiteral k)

/-- an entry of the stack; `none` is a divider -/
abbrev Stack := List (Option (Fm String))

/-- propositional_parser.go:152-160, 173-181: pop down to the divider; the operands in the order of the text.  `none`: panic -/
def popOps : Stack → List (Fm String) → Option (List (Fm String) × Stack)
  | [], _ => none
  | none :: st, acc => some (acc, st)
  | some f :: st, acc => popOps st (f :: acc)

mutual
/-- propositional_parser.go:117-258: the walk of the listener over the parse tree; `none`: panic -/
def walk (cons : Bool) : PT → Stack → Option Stack
  | .tru, st => some (some .tru :: st)
  | .fls, st => some (some .fls :: st)
  | .lit t, st => some (some (.lit (parseLiteral t)) :: st)
  | .br t, st => walk cons t st
  | .cmp ms c k, st => match ms.mapM exitMul with
    | none => none
    | some ts => some (some (tPBC c (atoi k) ts) :: st)
  | .neg t, st => match walk cons t st with
    | some (some f :: st) => some (some (tNot f) :: st)
    | _ => none
  | .conj ts, st => match walkL cons ts (none :: st) with
    | none => none
    | some st => match popOps st [] with
      | none => none
      | some (fs, st) => some (some (tAnd cons fs) :: st)
  | .disj ts, st => match walkL cons ts (none :: st) with
    | none => none
    | some st => match popOps st [] with
      | none => none
      | some (fs, st) => some (some (tOr cons fs) :: st)
  | .impl l r, st => match walk cons l st with
    | none => none
    | some st => match walk cons r st with
      | some (some g :: some f :: st) => some (some (tImpl cons f g) :: st)
      | _ => none
  | .equiv l r, st => match walk cons l st with
    | none => none
    | some st => match walk cons r st with
      | some (some g :: some f :: st) => some (some (tEquiv cons f g) :: st)
      | _ => none
def walkL (cons : Bool) : List PT → Stack → Option Stack
  | [], st => some st
  | t :: ts, st => match walk cons t st with
    | none => none
    | some st => walkL cons ts st
end

/-- outcome of the parser -/
inductive Res
  | ok (f : Fm String) | error | panic
  deriving DecidableEq

/-- propositional_parser.go:43-64 `parse`; where there are errors in the text, panics of the listener (which runs before the errors are looked at) are not modelled -/
def parse (cons : Bool) (cs : Txt) : Res :=
  if cs.all Io.isSpace then .ok .tru
  else match lex cs with
    | none => .error
    | some ts => match pFormula ts with
      | none => .error
      | some t => match walk cons t [] with
        | some st => match st.getLast? with
          | some (some f) => .ok f
          | _ => .panic
        | none => .panic

end Verif.Parser
