import Mathlib.Data.Rat.Defs
import Mathlib.Algebra.Order.Field.Rat
import Mathlib.Data.Rat.Floor

/-!
# Constants in expressions and their operators (model of m_base.h, m_base_vams.h, m_base_math.cc)

`Integer` and `vInteger` hold an `int32_t`, `Float` and `vReal` a `double` (here an exact rational number: rounding, infinities and
NaN are not modelled, a quotient or remainder that has no value is the outcome `special`), `String` and `vString` a string that is
not null.  The value "NA" (`_input == false`, `NOT_INPUT`) is not modelled.

`Token_BINOP::op` calls `a->op(b)` with `b` of static type `Base*`; every class forwards that to a method of `b` that gets `a` with
its dynamic type (m_base.h:250-263, 353-366, 492-506).  Here `fOn this arg` is the method `f` of `this` called with `arg`.
-/
namespace Gnucap.Base

/-- the six classes of constants -/
inductive Val where
  | int (v : ℤ)              -- `Integer`
  | vint (v : ℤ)             -- `vInteger`
  | flt (v : ℚ)              -- `Float`
  | vreal (v : ℚ)            -- `vReal`
  | str (s : List Char)      -- `String`
  | vstr (s : List Char)     -- `vString`
deriving DecidableEq, Repr

/-- what a method gives: undefined behaviour (overflow of `int32_t`, remainder by 0), a null pointer, a `double` that is not a number
or infinite, a constant -/
inductive Out where
  | ub
  | null
  | special
  | val (v : Val)
deriving DecidableEq, Repr

/-- `int32_t` holds it -/
def fits (v : ℤ) : Bool := decide (-2147483648 ≤ v) && decide (v ≤ 2147483647)

/-- an `int` result of class `Integer` / `vInteger` -/
def mkInt (v : ℤ) : Out := if fits v then .val (.int v) else .ub
def mkVint (v : ℤ) : Out := if fits v then .val (.vint v) else .ub
def mkFlt (v : ℚ) : Out := .val (.flt v)
/-- `new Integer((cond)?1:0)` -/
def mkBool (b : Bool) : Out := .val (.int (if b then 1 else 0))
def mkVbool (b : Bool) : Out := .val (.vint (if b then 1 else 0))

/-- `double` division -/
def fdiv (a b : ℚ) : Out := if b = 0 then .special else mkFlt (a / b)
/-- a rational number cut to its integer part, towards 0 -/
def trunc (q : ℚ) : ℤ := if 0 ≤ q then ⌊q⌋ else ⌈q⌉
/-- `fmod` -/
def ffmod (a b : ℚ) : Out := if b = 0 then .special else mkFlt (a - b * trunc (a / b))
/-- C's `/` and `%` on `int32_t`: undefined for a divisor 0 and for a quotient out of range -/
def idiv (mk : ℤ → Out) (a b : ℤ) : Out := if b = 0 then .ub else mk (a.tdiv b)
def imod (mk : ℤ → Out) (a b : ℤ) : Out := if b = 0 ∨ fits (a.tdiv b) = false then .ub else mk (a.tmod b)

/-- `strcmp(a, b)`: characters as `unsigned char` -/
def strcmp : List Char → List Char → Ordering
  | [], [] => .eq
  | [], _ :: _ => .lt
  | _ :: _, [] => .gt
  | a :: s, b :: t => if a.toNat < b.toNat then .lt else if b.toNat < a.toNat then .gt else strcmp s t

/-- `to_bool` (m_base.h:210, 313, 463) -/
def toBool : Val → Bool
  | .int v | .vint v => decide (v ≠ 0)
  | .flt v | .vreal v => decide (v ≠ 0)
  | .str s | .vstr s => !s.isEmpty

/-- `this->less(arg)` (m_base.h:220, 323, 338, 396, 475; m_base_vams.h:57, 117); the `Float` methods with an `Integer` argument
forward to the `Integer` methods with a `Float` argument -/
def lessOn : Val → Val → Out
  | .int t, .int a | .int t, .vint a => mkBool (decide (t < a))
  | .vint t, .int a | .vint t, .vint a => mkVbool (decide (t < a))
  | .int t, .flt a | .int t, .vreal a | .vint t, .flt a | .vint t, .vreal a => mkBool (decide ((t : ℚ) < a))
  | .flt t, .flt a | .flt t, .vreal a | .vreal t, .flt a | .vreal t, .vreal a => mkBool (decide (t < a))
  | .flt t, .int a | .flt t, .vint a | .vreal t, .int a | .vreal t, .vint a => mkBool (decide ((a : ℚ) > t))
  | .str t, .str a | .str t, .vstr a | .vstr t, .str a | .vstr t, .vstr a => mkBool (strcmp t a == .lt)
  | _, _ => .null

/-- `this->greater(arg)` (m_base.h:221, 324, 339, 397, 476; m_base_vams.h:58, 118) -/
def greaterOn : Val → Val → Out
  | .int t, .int a | .int t, .vint a => mkBool (decide (t > a))
  | .vint t, .int a | .vint t, .vint a => mkVbool (decide (t > a))
  | .int t, .flt a | .int t, .vreal a | .vint t, .flt a | .vint t, .vreal a => mkBool (decide ((t : ℚ) > a))
  | .flt t, .flt a | .flt t, .vreal a | .vreal t, .flt a | .vreal t, .vreal a => mkBool (decide (t > a))
  | .flt t, .int a | .flt t, .vint a | .vreal t, .int a | .vreal t, .vint a => mkBool (decide ((a : ℚ) < t))
  | .str t, .str a | .str t, .vstr a | .vstr t, .str a | .vstr t, .vstr a => mkBool (strcmp t a == .gt)
  | _, _ => .null

/-- `this->leq(arg)` (m_base.h:222, 325, 340, 398, 477; m_base_vams.h:59, 119) -/
def leqOn : Val → Val → Out
  | .int t, .int a | .int t, .vint a => mkBool (decide (t ≤ a))
  | .vint t, .int a | .vint t, .vint a => mkVbool (decide (t ≤ a))
  | .int t, .flt a | .int t, .vreal a | .vint t, .flt a | .vint t, .vreal a => mkBool (decide ((t : ℚ) ≤ a))
  | .flt t, .flt a | .flt t, .vreal a | .vreal t, .flt a | .vreal t, .vreal a => mkBool (decide (t ≤ a))
  | .flt t, .int a | .flt t, .vint a | .vreal t, .int a | .vreal t, .vint a => mkBool (decide ((a : ℚ) ≥ t))
  | .str t, .str a | .str t, .vstr a | .vstr t, .str a | .vstr t, .vstr a => mkBool (strcmp t a != .gt)
  | _, _ => .null

/-- `this->geq(arg)` (m_base.h:223, 326, 341, 399, 478; m_base_vams.h:60, 120) -/
def geqOn : Val → Val → Out
  | .int t, .int a | .int t, .vint a => mkBool (decide (t ≥ a))
  | .vint t, .int a | .vint t, .vint a => mkVbool (decide (t ≥ a))
  | .int t, .flt a | .int t, .vreal a | .vint t, .flt a | .vint t, .vreal a => mkBool (decide ((t : ℚ) ≥ a))
  | .flt t, .flt a | .flt t, .vreal a | .vreal t, .flt a | .vreal t, .vreal a => mkBool (decide (t ≥ a))
  | .flt t, .int a | .flt t, .vint a | .vreal t, .int a | .vreal t, .vint a => mkBool (decide ((a : ℚ) ≤ t))
  | .str t, .str a | .str t, .vstr a | .vstr t, .str a | .vstr t, .vstr a => mkBool (strcmp t a != .lt)
  | _, _ => .null

/-- `this->not_equal(arg)` (m_base.h:224, 327, 342, 400, 479; m_base_vams.h:61, 121) -/
def notEqualOn : Val → Val → Out
  | .int t, .int a | .int t, .vint a => mkBool (decide (t ≠ a))
  | .vint t, .int a | .vint t, .vint a => mkVbool (decide (t ≠ a))
  | .int t, .flt a | .int t, .vreal a | .vint t, .flt a | .vint t, .vreal a => mkBool (decide ((t : ℚ) ≠ a))
  | .flt t, .flt a | .flt t, .vreal a | .vreal t, .flt a | .vreal t, .vreal a => mkBool (decide (t ≠ a))
  | .flt t, .int a | .flt t, .vint a | .vreal t, .int a | .vreal t, .vint a => mkBool (decide ((a : ℚ) ≠ t))
  | .str t, .str a | .str t, .vstr a | .vstr t, .str a | .vstr t, .vstr a => mkBool (strcmp t a != .eq)
  | _, _ => .null

/-- `this->equal(arg)` (m_base.h:225, 328, 343, 401, 480; m_base_vams.h:62, 122) -/
def equalOn : Val → Val → Out
  | .int t, .int a | .int t, .vint a => mkBool (decide (t = a))
  | .vint t, .int a | .vint t, .vint a => mkVbool (decide (t = a))
  | .int t, .flt a | .int t, .vreal a | .vint t, .flt a | .vint t, .vreal a => mkBool (decide ((t : ℚ) = a))
  | .flt t, .flt a | .flt t, .vreal a | .vreal t, .flt a | .vreal t, .vreal a => mkBool (decide (t = a))
  | .flt t, .int a | .flt t, .vint a | .vreal t, .int a | .vreal t, .vint a => mkBool (decide ((a : ℚ) = t))
  | .str t, .str a | .str t, .vstr a | .vstr t, .str a | .vstr t, .vstr a => mkBool (strcmp t a == .eq)
  | _, _ => .null

/-- `this->add(arg)` for a number `arg` (m_base.h:226, 329, 344, 402; m_base_vams.h:63, 123) -/
def addOn : Val → Val → Out
  | .int t, .int a | .int t, .vint a => mkInt (t + a)
  | .vint t, .int a | .vint t, .vint a => mkVint (t + a)
  | .int t, .flt a | .int t, .vreal a | .vint t, .flt a | .vint t, .vreal a => mkFlt ((t : ℚ) + a)
  | .flt t, .flt a | .flt t, .vreal a | .vreal t, .flt a | .vreal t, .vreal a => mkFlt (t + a)
  | .flt t, .int a | .flt t, .vint a | .vreal t, .int a | .vreal t, .vint a => mkFlt ((a : ℚ) + t)
  | _, _ => .null

/-- `this->r_add(arg)` for a string `arg`: `String::r_add` and `vString::r_add` call `arg->add(this)`, which is null unless both are
`vString` (m_base.h:481-482, 498, m_base_vams.h:193-212); numbers have the null of `Base` (m_base.h:91) -/
def rAddOn : Val → Val → Out
  | .vstr t, .vstr a => .val (.vstr (a ++ t))
  | _, _ => .null

/-- `this->multiply(arg)` (m_base.h:227, 330, 345, 403, 484; m_base_vams.h:64, 124) -/
def multiplyOn : Val → Val → Out
  | .int t, .int a | .int t, .vint a => mkInt (t * a)
  | .vint t, .int a | .vint t, .vint a => mkVint (t * a)
  | .int t, .flt a | .int t, .vreal a | .vint t, .flt a | .vint t, .vreal a => mkFlt ((t : ℚ) * a)
  | .flt t, .flt a | .flt t, .vreal a | .vreal t, .flt a | .vreal t, .vreal a => mkFlt (t * a)
  | .flt t, .int a | .flt t, .vint a | .vreal t, .int a | .vreal t, .vint a => mkFlt ((a : ℚ) * t)
  | _, _ => .null

/-- `this->r_subtract(arg)` (m_base.h:229, 332, 347, 405; m_base_vams.h:66, 126); `Integer::r_subtract(Float)` is
`arg->subtract(this)` -/
def rSubtractOn : Val → Val → Out
  | .int t, .int a | .int t, .vint a => mkInt (a - t)
  | .vint t, .int a | .vint t, .vint a => mkVint (a - t)
  | .int t, .flt a | .int t, .vreal a | .vint t, .flt a | .vint t, .vreal a => mkFlt (a - (t : ℚ))
  | .flt t, .flt a | .flt t, .vreal a | .vreal t, .flt a | .vreal t, .vreal a => mkFlt (a - t)
  | .flt t, .int a | .flt t, .vint a | .vreal t, .int a | .vreal t, .vint a => mkFlt ((a : ℚ) - t)
  | _, _ => .null

/-- `this->r_divide(arg)` (m_base.h:334, 349, 407, 548; m_base_vams.h:68, 128); `Integer::r_divide(Float)` is `arg->divide(this)` -/
def rDivideOn : Val → Val → Out
  | .int t, .int a | .int t, .vint a => fdiv (a : ℚ) (t : ℚ)
  | .vint t, .int a | .vint t, .vint a => idiv mkVint a t
  | .int t, .flt a | .int t, .vreal a | .vint t, .flt a | .vint t, .vreal a => fdiv a (t : ℚ)
  | .flt t, .flt a | .flt t, .vreal a | .vreal t, .flt a | .vreal t, .vreal a => fdiv a t
  | .flt t, .int a | .flt t, .vint a | .vreal t, .int a | .vreal t, .vint a => fdiv (a : ℚ) t
  | _, _ => .null

/-- `this->r_modulo(arg)` (m_base.h:233, 336, 351, 409; m_base_vams.h:70, 130); `Integer::r_modulo(Float)` is `arg->modulo(this)`;
`Float::r_modulo(Integer)` (351) has the operands of `modulo` -/
def rModuloOn : Val → Val → Out
  | .int t, .int a | .int t, .vint a => imod mkInt a t
  | .vint t, .int a | .vint t, .vint a => imod mkVint a t
  | .int t, .flt a | .int t, .vreal a | .vint t, .flt a | .vint t, .vreal a => ffmod a (t : ℚ)
  | .flt t, .flt a | .flt t, .vreal a | .vreal t, .flt a | .vreal t, .vreal a => ffmod a t
  | .flt t, .int a | .flt t, .vint a | .vreal t, .int a | .vreal t, .vint a => ffmod t (a : ℚ)
  | _, _ => .null

/-- `Base::logic_or`, `logic_and`, `logic_not` (m_base_math.cc:35-68) -/
def logicOr (a b : Val) : Out := mkBool (if toBool a then true else toBool b)
def logicAnd (a b : Val) : Out := mkBool (if !toBool a then false else toBool b)
def logicNot (a : Val) : Out := mkBool (!toBool a)

/-- `minus` and `plus` (m_base.h:217-218, 320-321, 467-468; not overridden by `vInteger`, `vReal`) -/
def minus : Val → Out
  | .int v | .vint v => mkInt (-v)
  | .flt v | .vreal v => mkFlt (-v)
  | .str _ | .vstr _ => .null

def plus : Val → Out
  | .int v | .vint v => mkInt v
  | .flt v | .vreal v => mkFlt v
  | .str _ | .vstr _ => .null

/-- the binary operators of expressions -/
inductive Op where
  | mul | add | sub | div | mod | eq | ne | lt | gt | le | ge | or | and
deriving DecidableEq, Repr

inductive Uop where
  | minus | plus | not
deriving DecidableEq, Repr

def isStr : Val → Bool
  | .str _ | .vstr _ => true
  | _ => false

/-- `Token_BINOP::op` (m_expression_reduce.cc:33-82) with the forwarding of m_base.h:250-263, 353-366, 492-506: `a op b` is a method
of `b` applied to `a` -/
def binop (o : Op) (a b : Val) : Out :=
  match o with
  | .mul => multiplyOn b a
  | .add => if isStr a then rAddOn b a else addOn b a
  | .sub => rSubtractOn b a
  | .div => rDivideOn b a
  | .mod => rModuloOn b a
  | .eq => equalOn b a
  | .ne => notEqualOn b a
  | .lt => greaterOn b a
  | .gt => lessOn b a
  | .le => geqOn b a
  | .ge => leqOn b a
  | .or => logicOr a b
  | .and => logicAnd a b

/-- `Token_UNARY::op` (m_expression_reduce.cc:84-107) -/
def unop (o : Uop) (a : Val) : Out :=
  match o with
  | .minus => minus a
  | .plus => plus a
  | .not => logicNot a

/-- the logarithm that the function `log` takes (func_core.cc:184-197): to the base 10 for `vReal` and `vInteger`, natural for
`Float` and `Integer` -/
inductive Log where
  | ten (v : ℚ)
  | natural (v : ℚ)
deriving DecidableEq, Repr

def logFn : Val → Option Log
  | .vreal v => some (.ten v)
  | .flt v => some (.natural v)
  | .vint v => some (.ten v)
  | .int v => some (.natural v)
  | .str _ | .vstr _ => none

end Gnucap.Base
