import Verif.BaseModel
import Verif.NumModel

/-!
# Reading and printing expressions (model of m_expression.h, m_expression_in.cc, m_expression_dump.cc)

An `Expression` is a list of tokens in reverse Polish order.  The reader works on the text from the cursor on (see `ScanModel`); every
reading function appends tokens to the list and moves the cursor, or throws.

Simplifications: the functions are given a number that goes down by one in every call (`fuel`); the outcome `fuel` means that it did not
suffice (`parse` gives enough: see `parse_total`).  Tokens are values, so the memory of the tokens is not modelled.
-/
namespace Gnucap.Expr
open Gnucap.Scan Gnucap.Num

/-- the classes of `Token` (m_expression.h:51-247).  A `Token_CONSTANT` made by the reader is a `vString`. -/
inductive Tok where
  | sym (name : List Char)
  | stop (name : List Char)
  | parlist
  | array
  | un (name : List Char)
  | bin (name : List Char)
  | tern (t f : List Tok)
  | const (v : Base.Val)

/-- what a reading function delivers -/
inductive PRes (α : Type) where
  | ok (a : α)
  | err             -- an exception is thrown
  | fuel

def PRes.bind {α β : Type} (x : PRes α) (f : α → PRes β) : PRes β :=
  match x with
  | .ok a => f a
  | .err => .err
  | .fuel => .fuel

/-- the tokens so far, and the text from the cursor on -/
abbrev St := List Tok × List Char

/-- `skip1b` (ap_skip.cc:46-52): `_ok` and the text; blanks are skipped in any case -/
def skip1b (c : Char) (s : List Char) : Bool × List Char :=
  match skipbl s with
  | [] => (false, [])
  | d :: r => if d = c then (true, skipbl r) else (false, d :: r)

/-- `File >> "pattern"` and `last_match()` (ap_match.cc:30-105): the matched text and the text after it; on failure the cursor is
where it was -/
def umatchName (ci : Bool) (pat start : List Char) : Option (List Char × List Char) :=
  match umatchGo ci pat false start (skipbl start) with
  | .ok r => some ((skipbl start).take ((skipbl start).length - r.length), skipcom r)
  | _ => none

/-- `is_pfloat` (ap.h:115) -/
def isPfloat (c : Char) : Bool := isDigit c || c == '.'

/-- the characters of a name and the brackets around an index (m_base_in.cc:83-95) -/
def nameLoop (bracket : ℕ) : List Char → List Char × List Char
  | [] => ([], [])
  | c :: r =>
    if isAlpha c || isPfloat c || c == '_' || c == '$' then
      let (d, r') := nameLoop bracket r
      (c :: d, r')
    else if c == '[' then
      let (d, r') := nameLoop (bracket + 1) r
      (c :: d, r')
    else if bracket ≠ 0 ∧ c == ']' then
      let (d, r') := nameLoop (bracket - 1) r
      (c :: d, r')
    else ([], c :: r)

/-- the exponent of a number (m_base_in.cc:69-78) -/
def expPart : List Char → List Char × List Char
  | [] => ([], [])
  | c :: r =>
    if c == 'e' || c == 'E' then
      match r with
      | d :: r' =>
        if d == '+' || d == '-' then (c :: d :: r'.takeWhile isDigit, r'.dropWhile isDigit)
        else (c :: r.takeWhile isDigit, r.dropWhile isDigit)
      | [] => ([c], [])
    else ([], c :: r)

/-- `Name_String::parse` (m_base_in.cc:61-105): the name and the text after it and after blanks -/
def nameString (s : List Char) : List Char × List Char :=
  let s := skipbl s
  match s with
  | [] => ([], [])
  | c :: _ =>
    if isPfloat c then
      let (e, r) := expPart (s.dropWhile isPfloat)
      (s.takeWhile isPfloat ++ e ++ r.takeWhile isAlpha, skipbl (r.dropWhile isAlpha))
    else
      let (d, r) := nameLoop 0 s
      (d, skipbl r)

/-- the loop of `vString::parse` (m_base_in.cc:128-146), after the opening quote: the string, and the text after the closing quote;
`none` if there is none -/
def quoted : List Char → Option (List Char × List Char)
  | [] => none
  | '\\' :: '"' :: r => (quoted r).map fun (d, r') => ('\\' :: '"' :: d, r')
  | '\\' :: '\\' :: r => (quoted r).map fun (d, r') => ('\\' :: '\\' :: d, r')
  | '"' :: r => some ([], r)
  | c :: r => (quoted r).map fun (d, r') => (c :: d, r')

/-- `ctos("", "<", ">")` at a `<` (ap_convert.cc:83-114), after it: the string, the text after it -/
def angled (quotes : ℕ) : List Char → List Char × List Char
  | [] => ([], [])
  | '>' :: r => if quotes ≤ 1 then ([], r) else (let (d, r') := angled (quotes - 1) r; ('>' :: d, r'))
  | '<' :: r => let (d, r') := angled (quotes + 1) r; ('<' :: d, r')
  | '\\' :: '>' :: r => let (d, r') := angled quotes r; ('>' :: d, r')
  | '\\' :: r => angled quotes r
  | c :: r => let (d, r') := angled quotes r; (c :: d, r')

/-- the patterns of the operators -/
def patUnary : List Char := ['-', '|', '+', '|', '!']
def patTerm : List Char := ['*', '|', '/', '|', '%']
def patAdd : List Char := ['+', '|', '-']
def patLogical : List Char := ['<', '=', '|', '<', '|', '>', '=', '|', '>', '|', '=', '=', '|', '!', '=']
def patAnd : List Char := ['&', '&']
def patOr : List Char := ['\\', '|', '\\', '|']
def patQuest : List Char := ['?']

mutual
/-- `Expression::arglisttail` (m_expression_in.cc:62-69) -/
def arglisttail (ci : Bool) : ℕ → St → PRes St
  | 0, _ => .fuel
  | n + 1, (out, s) =>
    match skip1b ',' s with
    | (true, r) => (expression ci n (out, r)).bind (arglisttail ci n)
    | (false, r) => .ok (out, r)

/-- `Expression::arglist` (m_expression_in.cc:71-87) -/
def arglist (ci : Bool) : ℕ → St → PRes St
  | 0, _ => .fuel
  | n + 1, (out, s) =>
    match skip1b '(' s with
    | (true, r) =>
      match skip1b ')' r with
      | (true, r) => .ok (out ++ [.stop ['('], .parlist], r)
      | (false, r) =>
        ((expression ci n (out ++ [.stop ['(']], r)).bind (arglisttail ci n)).bind fun (out, r) =>
          match skip1b ')' r with
          | (true, r) => .ok (out ++ [.parlist], r)
          | (false, _) => .err
    | (false, r) => .ok (out, r)

/-- `Expression::array` (m_expression_in.cc:89-112), after `'{` -/
def arrayTail (ci : Bool) : ℕ → St → PRes St
  | 0, _ => .fuel
  | n + 1, (out, s) =>
    match skip1b '}' s with
    | (true, r) => .ok (out ++ [.stop ['\'', '{'], .array], r)
    | (false, r) =>
      ((expression ci n (out ++ [.stop ['\'', '{']], r)).bind (arglisttail ci n)).bind fun (out, r) =>
        match skip1b '}' r with
        | (true, r) => .ok (out ++ [.array], r)
        | (false, _) => .err

/-- `Expression::leaf` (m_expression_in.cc:114-140) -/
def leaf (ci : Bool) : ℕ → St → PRes St
  | 0, _ => .fuel
  | n + 1, (out, s) =>
    if s.head? = some '"' then
      match quoted s.tail with
      | some (d, r) => .ok (out ++ [.const (.vstr d)], skipbl r)
      | none => .err
    else if s.head? = some '<' then
      let (d, r) := angled 1 s.tail
      .ok (out ++ [.sym ('<' :: d ++ ['>'])], skipcom r)
    else
      match skip1b '\'' s with
      | (true, '{' :: r) => arrayTail ci n (out, r)
      | _ =>
        let (name, r) := nameString s
        if r.length < s.length then
          (arglist ci n (out, r)).bind fun (out, r) => .ok (out ++ [.sym name], r)
        else .err

/-- `Expression::factor` (m_expression_in.cc:142-164) -/
def factor (ci : Bool) : ℕ → St → PRes St
  | 0, _ => .fuel
  | n + 1, (out, s) =>
    match umatchName ci patUnary s with
    | some (name, r) => (operand ci n (out, r)).bind fun (out, r) => .ok (out ++ [.un name], r)
    | none => operand ci n (out, s)

/-- the part of `Expression::factor` after the sign (m_expression_in.cc:150-158) -/
def operand (ci : Bool) : ℕ → St → PRes St
  | 0, _ => .fuel
  | n + 1, (out, s) =>
    match skip1b '(' s with
    | (true, r) =>
      (expression ci n (out, r)).bind fun (out, r) =>
        match skip1b ')' r with
        | (true, r) => .ok (out, r)
        | (false, _) => .err
    | (false, r) => leaf ci n (out, r)

/-- `Expression::ternary` (m_expression_in.cc:166-186), after `?` -/
def ternary (ci : Bool) : ℕ → St → PRes St
  | 0, _ => .fuel
  | n + 1, (out, s) =>
    (expression ci n ([], s)).bind fun (t, r) =>
    match skip1b ':' r with
    | (true, r) => (expression ci n ([], r)).bind fun (f, r) => .ok (out ++ [.tern t f], r)
    | (false, _) => .err

/-- `Expression::termtail` (m_expression_in.cc:188-197) -/
def termtail (ci : Bool) : ℕ → St → PRes St
  | 0, _ => .fuel
  | n + 1, (out, s) =>
    match umatchName ci patTerm s with
    | some (name, r) => (factor ci n (out, r)).bind fun (out, r) => termtail ci n (out ++ [.bin name], r)
    | none => .ok (out, s)

/-- `Expression::term` (m_expression_in.cc:199-205) -/
def term (ci : Bool) : ℕ → St → PRes St
  | 0, _ => .fuel
  | n + 1, st => (factor ci n st).bind (termtail ci n)

/-- `Expression::addexptail` (m_expression_in.cc:207-216) -/
def addexptail (ci : Bool) : ℕ → St → PRes St
  | 0, _ => .fuel
  | n + 1, (out, s) =>
    match umatchName ci patAdd s with
    | some (name, r) => (term ci n (out, r)).bind fun (out, r) => addexptail ci n (out ++ [.bin name], r)
    | none => .ok (out, s)

/-- `Expression::addexp` (m_expression_in.cc:218-222) -/
def addexp (ci : Bool) : ℕ → St → PRes St
  | 0, _ => .fuel
  | n + 1, st => (term ci n st).bind (addexptail ci n)

/-- `Expression::logicaltail` (m_expression_in.cc:224-233) -/
def logicaltail (ci : Bool) : ℕ → St → PRes St
  | 0, _ => .fuel
  | n + 1, (out, s) =>
    match umatchName ci patLogical s with
    | some (name, r) => (addexp ci n (out, r)).bind fun (out, r) => logicaltail ci n (out ++ [.bin name], r)
    | none => .ok (out, s)

/-- `Expression::logical` (m_expression_in.cc:235-239) -/
def logical (ci : Bool) : ℕ → St → PRes St
  | 0, _ => .fuel
  | n + 1, st => (addexp ci n st).bind (logicaltail ci n)

/-- `Expression::andtail` (m_expression_in.cc:241-250) -/
def andtail (ci : Bool) : ℕ → St → PRes St
  | 0, _ => .fuel
  | n + 1, (out, s) =>
    match umatchName ci patAnd s with
    | some (name, r) => (logical ci n (out, r)).bind fun (out, r) => andtail ci n (out ++ [.bin name], r)
    | none => .ok (out, s)

/-- `Expression::andarg` (m_expression_in.cc:252-256) -/
def andarg (ci : Bool) : ℕ → St → PRes St
  | 0, _ => .fuel
  | n + 1, st => (logical ci n st).bind (andtail ci n)

/-- `Expression::exptail` (m_expression_in.cc:258-270) -/
def exptail (ci : Bool) : ℕ → St → PRes St
  | 0, _ => .fuel
  | n + 1, (out, s) =>
    match umatchName ci patOr s with
    | some (name, r) => (andarg ci n (out, r)).bind fun (out, r) => exptail ci n (out ++ [.bin name], r)
    | none =>
      match umatchName ci patQuest s with
      | some (_, r) => ternary ci n (out, r)
      | none => .ok (out, s)

/-- `Expression::expression` (m_expression_in.cc:272-276) -/
def expression (ci : Bool) : ℕ → St → PRes St
  | 0, _ => .fuel
  | n + 1, st => (andarg ci n st).bind (exptail ci n)
end

/-- `Expression::parse` (m_expression_in.cc:278-281): the tokens and the text left over -/
def parse (ci : Bool) (s : List Char) : PRes (List Tok × List Char) := expression ci (20 * s.length + 20) ([], s)

/-! ## Printing -/

/-- an entry of the stack of `Expression::dump`: the class of the token as far as `dump` looks at it, and its `full_name` -/
inductive DTok where
  | stop (s : List Char)
  | parlist (s : List Char)
  | other (s : List Char)         -- symbol or constant

/-- what `dump` delivers -/
inductive DRes (α : Type) where
  | ok (a : α)
  | bad           -- "bad expression" thrown, or an empty stack read, or an `unreachable()` passed

def DRes.bind {α β : Type} (x : DRes α) (f : α → DRes β) : DRes β :=
  match x with
  | .ok a => f a
  | .bad => .bad

/-- `val_string` of a constant (m_base.h:209, 312; m_base_vams.h:152-160): strings and integers; the 15 digits of a `Float` are left to a
parameter -/
def valString (ftos15 : ℚ → List Char) : Base.Val → List Char
  | .int v | .vint v => (toString v).toList
  | .flt v | .vreal v => ftos15 v
  | .str s => s
  | .vstr s => '"' :: s ++ ['"']

/-- the loop over the arguments (m_expression_dump.cc:53-76): down to the `Token_STOP` -/
def dumpArgs (been : Bool) (tmp : List Char) : List DTok → DRes (List Char × List DTok)
  | [] => .bad
  | .stop s :: r => .ok (s ++ tmp, r)
  | .other s :: r => dumpArgs true (s ++ (if been then ',' :: ' ' :: tmp else tmp)) r
  | .parlist _ :: _ => .bad

mutual
/-- one round of the loop of `Expression::dump` (m_expression_dump.cc:43-137); the stack has its back first -/
def dumpStep (f15 : ℚ → List Char) : Tok → List DTok → DRes (List DTok)
  | .stop s, st => .ok (.stop s :: st)                                                    -- 44-45
  | .parlist, st => (dumpArgs false [')'] st).bind fun (t, r) => .ok (.parlist t :: r)    -- 46-84
  | .array, st => (dumpArgs false ['}'] st).bind fun (t, r) => .ok (.other t :: r)
  | .const v, .parlist p :: st => .ok (.other (valString f15 v ++ p) :: st)               -- 85-94
  | .const v, st => .ok (.other (valString f15 v) :: st)                                  -- 95-97
  | .sym s, .parlist p :: st => .ok (.other (s ++ p) :: st)
  | .sym s, st => .ok (.other s :: st)
  | .bin s, .other t2 :: .other t1 :: st => .ok (.other ('(' :: t1 ++ ' ' :: s ++ ' ' :: t2 ++ [')']) :: st)   -- 98-109
  | .bin _, _ => .bad
  | .un s, .other t1 :: st => .ok (.other ('(' :: s ++ ' ' :: t1 ++ [')']) :: st)         -- 110-118
  | .un _, _ => .bad
  | .tern t f, .other c :: st =>                                                          -- 119-134
    (dumpList f15 t []).bind fun t => (dumpList f15 f []).bind fun f =>
      match t, f with
      | .other t :: _, .other f :: _ => .ok (.other ('(' :: c ++ [')', '?', ' ', '('] ++ t ++ [')', ':', '('] ++ f ++ [')']) :: st)
      | _, _ => .bad
  | .tern _ _, _ => .bad

def dumpList (f15 : ℚ → List Char) : List Tok → List DTok → DRes (List DTok)
  | [], st => .ok st
  | t :: l, st => (dumpStep f15 t st).bind (dumpList f15 l)
end

/-- `Expression::dump` (m_expression_dump.cc:37-151) -/
def dump (f15 : ℚ → List Char) (l : List Tok) : DRes (List Char) :=
  match dumpList f15 l [] with
  | .ok (.other t :: _) => .ok t
  | _ => .bad

end Gnucap.Expr
