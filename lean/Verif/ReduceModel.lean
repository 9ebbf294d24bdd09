import Verif.ExprModel

/-!
# Reducing expressions (model of m_expression_reduce.cc, u_function.cc, the functions of func_core.cc as far as they touch the tokens)

`Expression::reduce_copy` runs over the tokens of an expression in reverse Polish order and calls `stack_op` of each on the expression
that is being built.  Here that expression is a list with its last token first.

Simplifications: constants are as in `BaseModel`; the constant "NA" is the outcome `special`.  A function of the table either has its
own `stack_op` with one argument (`abs`, `sqrt`, `log`) or evaluates a list of numbers; the functions themselves are parameters of the
model, and the printing of the arguments to text and of the result back is taken as exact.  A function that throws or returns an empty
string gives `none`.
-/
namespace Gnucap.Expr
open Gnucap.Scan Gnucap.Num

/-- what reducing delivers -/
inductive RRes (α : Type) where
  | ok (a : α)
  | err             -- an exception is thrown
  | ub              -- undefined behaviour
  | special         -- a constant that is not modelled (infinite, NaN, NA)
deriving DecidableEq

def RRes.bind {α β : Type} (x : RRes α) (f : α → RRes β) : RRes β :=
  match x with
  | .ok a => f a
  | .err => .err
  | .ub => .ub
  | .special => .special

/-- the types of a `PARAM_INSTANCE` (u_parameter.h:75-98, 262-283): untyped (`PARAM_ANY`), `PARAMETER<T>` -/
inductive Ty where
  | any | flt | int | vreal | vint | vstr
deriving DecidableEq

/-- a parameter that has a hard value: what `string()` gives, and its type -/
structure Par where
  text : List Char
  ty : Ty

/-- a function of `function_dispatcher` -/
inductive Fn where
  | usual (ev : List Base.Val → Option ℚ)                 -- `eval` (u_function.cc:26-82)
  | one (drops : Bool) (g : Base.Val → Option Base.Val)   -- own `stack_op`; `drops`: takes a string off the stack before it throws

/-- where names are looked up, and the options of the reader -/
structure Ctx where
  verilog : Bool                                          -- `_scope->is_verilog_math()`
  ci : Bool                                               -- `OPT::case_insensitive`
  units : Units
  par : List Char → Option Par                            -- `(*(_scope->params()))[name]`, if it has a hard value
  fn : List Char → Option Fn

/-- `dynamic_cast<Float const*>(d) || dynamic_cast<Integer const*>(d)` -/
def numeric (v : Base.Val) : Bool := !Base.isStr v

def ofOut : Base.Out → RRes (Option Base.Val)
  | .ub => .ub
  | .null => .ok none
  | .special => .special
  | .val v => .ok (some v)

/-- the `op` of a name (m_expression_reduce.cc:44-74, 91-101) -/
def opOf : List Char → Option Base.Op
  | ['*'] => some .mul
  | ['+'] => some .add
  | ['-'] => some .sub
  | ['/'] => some .div
  | ['%'] => some .mod
  | ['=', '='] => some .eq
  | ['!', '='] => some .ne
  | ['<'] => some .lt
  | ['>'] => some .gt
  | ['<', '='] => some .le
  | ['>', '='] => some .ge
  | ['|', '|'] => some .or
  | ['&', '&'] => some .and
  | _ => none

def uopOf : List Char → Option Base.Uop
  | ['-'] => some .minus
  | ['+'] => some .plus
  | ['!'] => some .not
  | _ => none

/-- `Token_BINOP::op` (m_expression_reduce.cc:33-82); another name gives a null pointer, which the caller dereferences -/
def binData (op : List Char) (a b : Base.Val) : RRes (Option Base.Val) :=
  match opOf op with
  | some o => ofOut (Base.binop o a b)
  | none => .ub

/-- `Token_UNARY::op` (m_expression_reduce.cc:84-107) -/
def unData (op : List Char) (a : Base.Val) : RRes (Option Base.Val) :=
  match uopOf op with
  | some o => ofOut (Base.unop o a)
  | none => .ub

/-- `strchr("+*", name()[0])`: also true for an empty name -/
def isAddMul : List Char → Bool
  | [] => true
  | c :: _ => c == '+' || c == '*'

/-- `Token_BINOP::stack_op` (m_expression_reduce.cc:288-388) -/
def binStack (op : List Char) : List Tok → RRes (List Tok)
  | .sym s :: .const v :: st =>
    if isAddMul op && !Base.isStr v then .ok (.bin op :: .const v :: .sym s :: st) else .ok (.bin op :: .sym s :: .const v :: st)
  | .sym s :: t2 :: st => .ok (.bin op :: .sym s :: t2 :: st)
  | .const b :: .const a :: st =>
    (binData op a b).bind fun
      | some v => .ok (.const v :: st)
      | none => .ok (.bin op :: .const b :: .const a :: st)
  | .const b :: .bin op2 :: st =>
    if op2 = op ∧ isAddMul op = true then
      match st with
      | .const c :: st' =>
        (binData op c b).bind fun
          | some v => .ok (.bin op2 :: .const v :: st')
          | none => .ok (.bin op :: .const b :: .bin op2 :: .const c :: st')
      | [] => .ub
      | t3 :: st' => .ok (.bin op :: .const b :: .bin op2 :: t3 :: st')
    else .ok (.bin op :: .const b :: .bin op2 :: st)
  | t1 :: t2 :: st => .ok (.bin op :: t1 :: t2 :: st)
  | _ => .ub

/-- `Token_UNARY::stack_op` (m_expression_reduce.cc:410-428); the copy constructor of `Token_UNARY` (m_expression.h) does not copy the
name, so the clone has none -/
def unStack (op : List Char) : List Tok → RRes (List Tok)
  | .const a :: st =>
    (unData op a).bind fun
      | some v => .ok (.const v :: st)
      | none => .ok (.un [] :: .const a :: st)
  | t1 :: st => .ok (.un [] :: t1 :: st)
  | [] => .ub

/-- the arguments on the stack, down to the `STOP` (u_function.cc:31-52): `ok none` if one of them is not a number -/
def numArgs (acc : List Base.Val) : List Tok → RRes (Option (List Base.Val × List Tok))
  | [] => .ub
  | .stop _ :: st => .ok (some (acc, st))
  | .const v :: st => if numeric v then numArgs (v :: acc) st else .ok none
  | _ :: _ => .ok none

/-- a call of `f` with the `PARLIST` on top of `st` (u_function.cc:63-82, func_core.cc:37-93, 97-155, 171-232; the `catch` of
m_expression_reduce.cc:152-156) -/
def callStack (name : List Char) : Fn → List Tok → RRes (List Tok)
  | .usual ev, st =>
    (numArgs [] st).bind fun
      | none => .ok (.sym name :: .parlist :: st)
      | some (vs, st') =>
        match ev vs with
        | none => .ok (.sym name :: .parlist :: st)
        | some q => .ok (.const (.flt q) :: st')
  | .one drops g, st =>
    match st with
    | .const v :: st' =>
      if numeric v then
        match g v with
        | none => .special
        | some r =>
          match st' with
          | .stop _ :: st'' => .ok (.const r :: st'')
          | [] => .ub
          | _ :: _ => .ok (.sym name :: .parlist :: .const v :: st')
      else if drops then .ok (.sym name :: .parlist :: st')
      else .ok (.sym name :: .parlist :: .const v :: st')
    | [] => .ub
    | t :: st' => .ok (.sym name :: .parlist :: t :: st')

/-- `strchr("0123456789.", name()[0])`: also true for an empty name -/
def isNumber : List Char → Bool
  | [] => true
  | c :: _ => isDigit c || c == '.'

/-- the constant of a number (m_expression_reduce.cc:167-194; `Integer::parse`, `Float::parse`, m_base_in.cc:27-59) -/
def numConst (c : Ctx) (s : List Char) : RRes Base.Val :=
  if s.all isDigit then
    match ctoi s with
    | none => .ub
    | some (v, ok, _) => if ok then .ok (if c.verilog then .vint v else .int v) else .special
  else
    match ctof c.units s with
    | .ub => .ub
    | .none _ => .special
    | .num v _ => .ok (if c.verilog then .vreal v else .flt v)

/-- `p->value()->assign(v)` (m_base.h:315, 470, 554; m_base_vams.h:112, 133, 172-182), `v->assign(v)` for an untyped parameter -/
def assign : Ty → Base.Val → Base.Out
  | .any, v => .val v
  | .flt, .int v | .flt, .vint v => .val (.flt v)
  | .flt, .flt v | .flt, .vreal v => .val (.flt v)
  | .vreal, .int v | .vreal, .vint v => .val (.vreal v)
  | .vreal, .flt v | .vreal, .vreal v => .val (.vreal v)
  | .int, .int v | .int, .vint v => .val (.int v)
  | .int, .flt v | .int, .vreal v => Base.mkInt (Base.trunc v)
  | .vint, .int v | .vint, .vint v => .val (.vint v)
  | .vint, .flt v | .vint, .vreal v => Base.mkVint (Base.trunc v)
  | .vstr, .vstr s => .val (.vstr s)
  | .vstr, _ => .null
  | _, _ => .special

/-- `Expression::value` (m_expression.h): the data, if there is exactly one token -/
def value : List Tok → Option Base.Val
  | [.const v] => some v
  | _ => none

/-- what a name stands for: the tokens, last first, that replace it (m_expression_reduce.cc:195-238) -/
def nameStack (c : Ctx) (nest : List Tok → RRes (List Tok)) (s : List Char) (st : List Tok) : RRes (List Tok) :=
  match c.par s with
  | none => .ok (.sym s :: st)
  | some p =>
    match parse c.ci p.text with
    | .ok (pp, _) =>
      (nest pp).bind fun e =>
        match value e with
        | none => .ok (e.reverse ++ st)
        | some v =>
          (ofOut (assign p.ty v)).bind fun
            | some n => .ok (.const n :: st)
            | none => .ok (e.reverse ++ st)
    | _ => .err

/-- `Token_SYMBOL::stack_op` (m_expression_reduce.cc:142-240) -/
def symStack (c : Ctx) (nest : List Tok → RRes (List Tok)) (s : List Char) : List Tok → RRes (List Tok)
  | .parlist :: st =>
    match c.fn s with
    | some f => callStack s f st
    | none => .err
  | st =>
    if isNumber s then (numConst c s).bind fun v => .ok (.const v :: st)
    else
      match s with
      | '"' :: r =>
        match quoted r with
        | some (d, _) => .ok (.const (.vstr d) :: st)
        | none => .err
      | _ => nameStack c nest s st

mutual
/-- `stack_op` of a token; `nest` is `Expression(const Expression&, scope)` one level deeper -/
def stackOp (c : Ctx) (nest : List Tok → RRes (List Tok)) : Tok → List Tok → RRes (List Tok)
  | .sym s, st => symStack c nest s st
  | .stop s, st => .ok (.stop s :: st)
  | .parlist, st => .ok (.parlist :: st)
  | .array, st => .ok (.array :: st)
  | .un op, st => unStack op st
  | .bin op, st => binStack op st
  | .const v, st => .ok (.const v :: st)
  | .tern t f, st =>
    -- `Token_TERNARY::stack_op` (m_expression_reduce.cc:252-286)
    match st with
    | .const v :: st' =>
      if numeric v then (if Base.toBool v then stackList c nest t st' else stackList c nest f st')
      else (nest t).bind fun te => (nest f).bind fun fe => .ok (.tern te fe :: .const v :: st')
    | [] => .ub
    | t1 :: st' => (nest t).bind fun te => (nest f).bind fun fe => .ok (.tern te fe :: t1 :: st')

def stackList (c : Ctx) (nest : List Tok → RRes (List Tok)) : List Tok → List Tok → RRes (List Tok)
  | [], st => .ok st
  | t :: l, st => (stackOp c nest t st).bind (stackList c nest l)
end

/-- `Expression(const Expression&, const CARD_LIST*)` (m_expression_reduce.cc) with `n` levels left until "recursion too deep" -/
def reduce (c : Ctx) : ℕ → List Tok → RRes (List Tok)
  | 0, _ => .err
  | n + 1, l => (stackList c (reduce c n) l []).bind fun st => .ok st.reverse

end Gnucap.Expr
