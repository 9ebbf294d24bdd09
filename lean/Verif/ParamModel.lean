import Verif.ReduceModel

/-!
# Parameters and the scopes they are looked up in (model of u_parameter.cc and u_parameter.h)

A `PARAM_LIST` is a map from names to parameters and, through `_try_again`, has a list to look further in: here the chain of the maps,
innermost first.

Simplifications: a map is a list of pairs without repeated names.  The text a value is printed as (`to_string`) and the text between
quotes or braces (`ctos`) are parameters of the model.  Messages and the cached values of parameters that are evaluated again each time
are left out.
-/
namespace Gnucap.Param
open Gnucap.Expr Gnucap.Num

/-- options and functions that do not change while parameters are evaluated -/
structure Env where
  verilog : Bool                          -- `is_verilog_math()`
  ci : Bool                               -- `OPT::case_insensitive`
  units : Units
  fn : List Char → Option Fn
  levels : ℕ                              -- `OPT::recursion`
  text : Base.Val → List Char             -- `to_string`
  strip : List Char → List Char           -- `ctos("", "'\"{", "'\"}")`

/-- a `PARAM_INSTANCE`: type, `_s`, `_v` (`none`: null or NA).  `_s` is empty for a parameter without value and `#` for a fixed one. -/
structure Inst where
  ty : Ty
  s : List Char
  v : Option Base.Val

/-- `PARAM_INSTANCE()` -/
def Inst.empty : Inst := ⟨.any, [], none⟩

/-- `has_hard_value` (u_parameter.h:57) -/
def Inst.hard (i : Inst) : Bool := i.s ≠ []

/-- `_pl` -/
abbrev Frame := List (List Char × Inst)
/-- a list and those after it by `_try_again` -/
abbrev Chain := List Frame

/-- `_pl.find(Name)` -/
def Frame.find (f : Frame) (s : List Char) : Option Inst := (List.find? (fun p => p.1 == s) f).map (·.2)

/-- `_pl[Name] = i` -/
def Frame.put (f : Frame) (s : List Char) (i : Inst) : Frame := (s, i) :: List.filter (fun p => p.1 != s) f

/-- `notstd::to_lower` if case is ignored -/
def fold (ci : Bool) (s : List Char) : List Char := if ci then s.map Char.toLower else s

/-- `PARAM_LIST::deep_lookup` (u_parameter.cc:155-176); `none` is the garbage value -/
def deepLookup (ci : Bool) : Chain → List Char → Option Inst
  | [], _ => none
  | f :: rest, s =>
    match f.find (fold ci s) with
    | some i => if i.hard then some i else deepLookup ci rest (fold ci s)
    | none => deepLookup ci rest (fold ci s)

/-- `PARAM_INSTANCE::string` of a parameter with a hard value (u_parameter.h:127-135, 283) -/
def Inst.string (E : Env) (i : Inst) : List Char :=
  if i.s = ['#'] ∧ i.ty ≠ .any then
    match i.v with
    | some v => E.text v
    | none => ['N', 'A']
  else i.s

/-- what an expression sees of the parameters (m_expression_reduce.cc:195-205) -/
def ctx (E : Env) (ch : Chain) : Ctx where
  verilog := E.verilog
  ci := E.ci
  units := E.units
  par := fun s => (deepLookup E.ci ch s).map fun i => ⟨i.string E, i.ty⟩
  fn := E.fn

/-- what evaluating gives -/
inductive ERes where
  | val (v : Base.Val)
  | na (t : Ty)           -- the value NA in a parameter of this type
  | null                  -- no value
  | throw
  | ub
  | special               -- a constant that is not modelled
deriving DecidableEq

/-- does `dynamic_cast<value_type const*>` accept an object of this class -/
def castable : Ty → Base.Val → Bool
  | .flt, .flt _ | .flt, .vreal _ | .vreal, .vreal _ => true
  | .int, .int _ | .int, .vint _ | .vint, .vint _ => true
  | .vstr, .vstr _ => true
  | _, _ => false

def castableTy : Ty → Ty → Bool
  | .flt, .flt | .flt, .vreal | .vreal, .vreal | .int, .int | .int, .vint | .vint, .vint | .vstr, .vstr => true
  | _, _ => false

/-- the value as one of the type, for an object of a class the cast accepts -/
def slice : Ty → Base.Val → Base.Val
  | .flt, .vreal q => .flt q
  | .int, .vint n => .int n
  | _, v => v

/-- the default, in the type (u_parameter.h:577-583) -/
def ofDef (ty : Ty) (d : Option Base.Val) : ERes :=
  match d with
  | some v => if castable ty v then .val (slice ty v) else .na ty
  | none => .na ty

/-- the end of `PARAMETER<T>::lookup_solve` (u_parameter.h:526-537), and of `PARAM_ANY::lookup_solve` (u_parameter.cc:305-318): what
evaluating the parameter whose name is the whole text gave -/
def fallback (ty : Ty) (d : Option Base.Val) : ERes → ERes
  | .val b => if ty = .any then .val b else if castable ty b then .val (slice ty b) else .ub
  | .na t => if ty = .any then .null else if castableTy ty t then .na ty else .ub
  | .null => if ty = .any then .null else ofDef ty d
  | r => r

/-- parse and reduce the text, convert to the type (u_parameter.h:508-523, u_parameter.cc:285-303): `null` if there is no value -/
def solve (E : Env) (ch : Chain) (ty : Ty) (s : List Char) : ERes :=
  match parse E.ci s with
  | .ok (pp, _) =>
    match reduce (ctx E ch) E.levels pp with
    | .ok l =>
      match value l with
      | none => .null
      | some w =>
        match assign ty w with
        | .val v => .val v
        | .null => .null
        | .ub => .ub
        | .special => .special
    | .err => .throw
    | .ub => .ub
    | .special => .special
  | _ => .throw

/-- what `--recursion` and `lookup_solve` make of the evaluation of the parameter whose name is the text: an exception passes through -/
def back (ty : Ty) (d : Option Base.Val) : ℕ × ERes → ℕ × ERes
  | (k, .throw) => (k, .throw)
  | (k, r) => (k + 1, fallback ty d r)

/-- `e_val_` (u_parameter.h:568-607, u_parameter.cc:323-358) and the rest of `PARAM_INSTANCE::e_val`, with `k` levels left after
`++recursion`; `inner` is the evaluation of the parameter whose name is the text -/
def eBody (E : Env) (ch : Chain) (k : ℕ) (i : Inst) (d : Option Base.Val) (inner : ℕ × ERes) : ℕ × ERes :=
  if i.s = [] then (k + 1, if i.ty = .any then (match d with | some v => .val v | none => .null) else ofDef i.ty d)
  else if i.s = ['#'] then (k + 1, match i.v with | some v => .val v | none => if i.ty = .any then .null else .na i.ty)
  else
    match solve E ch i.ty i.s with
    | .null => back i.ty d inner
    | .throw => (k, .throw)
    | r => (k + 1, r)

/-- `PARAM_INSTANCE::e_val` (u_parameter.cc:178-204).  The state is the number of levels left, `OPT::recursion` − `recursion`; the counter is
put back on return but not when an exception passes. -/
def eVal (E : Env) (ch : Chain) : ℕ → Inst → Option Base.Val → ℕ × ERes
  | 0, _, _ => (E.levels, .throw)
  | k + 1, i, d => eBody E ch k i d (eVal E ch k ((deepLookup E.ci ch i.s).getD Inst.empty) none)

/-- `PARAM_INSTANCE::set_fixed` (u_parameter.h:325-343); `none`: assertion or null pointer -/
def setFixed (i : Inst) (v : Base.Val) : Option Inst :=
  match i.ty with
  | .any =>
    match v with
    | .flt q | .vreal q => some ⟨.flt, ['#'], some (.flt q)⟩
    | .int n | .vint n => some ⟨.int, ['#'], some (.int n)⟩
    | _ => some i                 -- incomplete()
  | t =>
    match assign t v with
    | .val w => some ⟨t, ['#'], some w⟩
    | _ => none

/-- the loop body of `eval_copy` (u_parameter.cc:114-152) for a name that is not there yet: the new parameter before its value is set -/
def proto (again : Chain) (name : List Char) : Inst :=
  match again with
  | [] => Inst.empty
  | f :: _ => (f.find name).getD ⟨.flt, [], none⟩

/-- what copying gives -/
inductive CRes where
  | ok (f : Frame)
  | throw
  | bad                   -- undefined behaviour, or a constant that is not modelled

/-- add a parameter to what the rest of the loop made -/
def addTo (name : List Char) (i : Inst) : ℕ × CRes → ℕ × CRes
  | (k, .ok f) => (k, .ok ((name, i) :: f))
  | r => r

/-- `PARAM_LIST::eval_copy` (u_parameter.cc:108-153) into an empty list, as in `attach_params` (e_cardlist.cc:492-505).  `again` is
`_try_again` of the list that is copied.  A constant that is NA leaves the parameter as the prototype has it. -/
def evalCopy (E : Env) (scope again : Chain) : ℕ → Frame → ℕ × CRes
  | k, [] => (k, .ok [])
  | k, (name, i) :: rest =>
    if i.hard then
      match eVal E scope k i none with
      | (k', .throw) => (k', .throw)
      | (k', .ub) => (k', .bad)
      | (k', .special) => (k', .bad)
      | (k', .val v) =>
        match setFixed (proto again name) v with
        | none => (k', .bad)
        | some pi => addTo name pi (evalCopy E scope again k' rest)
      | (k', _) => addTo name (proto again name) (evalCopy E scope again k' rest)
    else evalCopy E scope again k rest

/-- `PARAMETER<T>::operator=(std::string)` after a clash is resolved (u_parameter.h:150-164, u_parameter.cc:221-239), `PARAM_ANY::operator=` -/
def setText (E : Env) (i : Inst) (s : List Char) : Inst :=
  if i.ty = .any then { i with s := s }
  else if s = [] ∨ s = ['N', 'A'] then { i with s := [] }
  else if s.head?.any (fun c => c == '\'' || c == '"' || c == '{') then { i with s := E.strip s }
  else { i with s := s }

/-- `PARAM_LIST::set(Name, std::string)` (u_parameter.cc:221-239) -/
def setParam (E : Env) (f : Frame) (name s : List Char) : Frame :=
  f.put (fold E.ci name) (setText E ((f.find (fold E.ci name)).getD Inst.empty) s)

/-- `PARAM_LIST::set(Name, double)` (u_parameter.cc:206-219) -/
def setNum (E : Env) (f : Frame) (name : List Char) (q : ℚ) : Option Frame :=
  (setFixed ((f.find (fold E.ci name)).getD Inst.empty) (.flt q)).map (f.put (fold E.ci name))

end Gnucap.Param
