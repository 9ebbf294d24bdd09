import Verif.AnaCmdModel
import Verif.TranSetModel

/-!
# The command lines of the TRANSIENT and FOURIER analyses (model)

`TRANSIENT::setup` (apps/s_tr_set.cc:36-172), `TRANSIENT::options` (176-224) and `FOURIER::setup` (apps/s_fo.cc:229-319), from the text on.
Arguments are read as in `AnaCmdModel`, whose conventions hold here too.  What the numbers of a transient do is also `TranSetModel`; here
they are `PARAMETER`s that keep their texts.
-/
namespace Gnucap.TranCmd
open Gnucap.Scan Gnucap.Spice Gnucap.Num
open Gnucap.AnaCmd (Param parse Env isArg End)

/-- the `PARAMETER`s of a transient (include/s_tr.h:95-103) -/
inductive Field where
  | start | stop | strobe | dtmax | dtmin | dtratio | skip
  deriving DecidableEq

inductive Flag where
  | cold | plot | uic
  deriving DecidableEq

/-- `TRACE` (include/mode.h) as far as the command sets it -/
inductive Trace where
  | none | under | alltime | rejected | iteration | verbose
  deriving DecidableEq

/-- What a line sets: the `PARAMETER`s, `_sim->_temp_c`, the flags and `_trace` -/
structure St where
  par : Field → Param
  temp : ℚ
  flag : Flag → Bool
  trace : Trace

/-- What a word is for -/
inductive Act where
  | par (f : Field)
  | int (f : Field)
  | dtemp
  | temp
  | flag (f : Flag)
  | trace
  deriving DecidableEq

/-- `TRANSIENT::options` (apps/s_tr_set.cc:187-199) -/
def table : List (List Char × Act) := [
  (['c', '{', 'o', 'l', 'd', '}'], .flag .cold),
  (['d', 't', 'e', '{', 'm', 'p', '}'], .dtemp),
  (['d', 't', 'm', 'a', '{', 'x', '}'], .par .dtmax),
  (['d', 't', 'm', 'i', '{', 'n', '}'], .par .dtmin),
  (['d', 't', 'r', '{', 'a', 't', 'i', 'o', '}'], .par .dtratio),
  (['p', 'l', '{', 'o', 't', '}'], .flag .plot),
  (['s', 'k', '{', 'i', 'p', '}'], .int .skip),
  (['s', 't', 'a', '{', 'r', 't', '}'], .par .start),
  (['s', 't', 'o', '{', 'p', '}'], .par .stop),
  (['s', 't', 'r', '{', 'o', 'b', 'e', 'p', 'e', 'r', 'i', 'o', 'd', '}'], .par .strobe),
  (['t', 'e', '{', 'm', 'p', 'e', 'r', 'a', 't', 'u', 'r', 'e', '}'], .temp),
  (['u', 'i', 'c'], .flag .uic),
  (['t', 'r', '{', 'a', 'c', 'e', '}'], .trace)]

/-- The choices behind `trace` (apps/s_tr_set.cc:201-207), numbered as in `traceOf` -/
def traceWords : List (List Char × ℤ) := [
  (['n', '{', 'o', 'n', 'e', '}'], 0),
  (['o', '{', 'f', 'f', '}'], 0),
  (['w', '{', 'a', 'r', 'n', 'i', 'n', 'g', 's', '}'], 1),
  (['a', '{', 'l', 'l', 't', 'i', 'm', 'e', '}'], 2),
  (['r', '{', 'e', 'j', 'e', 'c', 't', 'e', 'd', '}'], 3),
  (['i', '{', 't', 'e', 'r', 'a', 't', 'i', 'o', 'n', 's', '}'], 4),
  (['v', '{', 'e', 'r', 'b', 'o', 's', 'e', '}'], 5)]

def traceOf : ℤ → Trace
  | 1 => .under
  | 2 => .alltime
  | 3 => .rejected
  | 4 => .iteration
  | 5 => .verbose
  | _ => .none

/-- `key + " {=}"` (include/u_parameter.h:676, lib/ap_get.cc:67, lib/u_parameter.cc:275, apps/s_tr_set.cc:199), `key + ' '` for a flag
(lib/ap_get.cc:32) -/
def Act.pattern (key : List Char) : Act → List Char
  | .flag _ => key ++ [' ']
  | _ => key ++ [' ', '{', '=', '}']

def St.setPar (st : St) (f : Field) (p : Param) : St := { st with par := Function.update st.par f p }
def St.setFlag (st : St) (f : Flag) (b : Bool) : St := { st with flag := Function.update st.flag f b }

/-- `int(x)` of a `double`, as in `Opt.toInt`; out of range is undefined -/
def toInt (x : ℚ) : Option ℤ := Opt.toInt x

/-- What is done with the text behind the word; `none`: undefined behaviour.  The `int` version of `Get` takes a number only
(lib/u_parameter.cc:273-281). -/
def Act.run (e : Env) (st : St) (r : List Char) : Act → Option (St × List Char)
  | .par f => (parse e.units e.ci (st.par f) r).map fun x => (st.setPar f x.1, x.2)
  | .int f => (Opt.number e.units r).bind fun x => (toInt x.1).map fun z => (st.setPar f (.num z), x.2)
  | .dtemp => (Opt.number e.units r).map fun x => ({ st with temp := x.1 + e.optTemp }, x.2)
  | .temp => (Opt.number e.units r).map fun x => ({ st with temp := x.1 }, x.2)
  | .flag f =>
    if (skip1b ['='] r).1 then
      let b := Opt.ctob e.ci (skip1b ['='] r).2
      some (st.setFlag f b.1, b.2)
    else some (st.setFlag f true, (skip1b ['='] r).2)
  | .trace =>
    match Opt.choose e.ci r traceWords with
    | some (z, r) => some ({ st with trace := traceOf z }, r)
    | none => some (st, e.outset r)

/-- The alternatives in order, `outset` last (apps/s_tr_set.cc:186-213) -/
def tryAll (e : Env) (st : St) (s : List Char) : List (List Char × Act) → Option (St × List Char)
  | [] => some (st, e.outset s)
  | (key, a) :: l =>
    match umatch e.ci (a.pattern key) s with
    | .ok r => a.run e st r
    | .ub => none
    | .fail =>
      match a with
      | .flag f =>
        match umatch e.ci (['n', 'o'] ++ key) s with
        | .ok r => some (st.setFlag f false, r)
        | .ub => none
        | .fail => tryAll e st s l
      | _ => tryAll e st s l

/-- The loop (apps/s_tr_set.cc:184-214); `here` is how much text there was at the last look, `n` bounds the rounds -/
def loop (e : Env) : ℕ → St → ℕ → List Char → End St
  | 0, _, _, _ => .running
  | n + 1, st, here, s =>
    match tryAll e st s table with
    | none => .ub
    | some (st', r) =>
      if skipbl r = [] then .done st' []
      else if (skipbl r).length < here then loop e n st' (skipbl r).length (skipbl r)
      else .done st' (skipbl r)

/-- `ploton`, `_sim->_uic = _cold = false` (apps/s_tr_set.cc:181-182); `plotOn`: `IO::plotset && plotlist().size() > 0` -/
def flags0 (plotOn : Bool) : Flag → Bool
  | .plot => plotOn
  | .cold => false
  | .uic => false

/-- `options` (apps/s_tr_set.cc:176-214) -/
def options (e : Env) (plotOn : Bool) (st : St) (s : List Char) : End St :=
  loop e (s.length + 1) { st with temp := e.optTemp, flag := flags0 plotOn, trace := .none } s.length s

/-- `Cmd.match1("'\"({") || Cmd.is_pfloat()` (apps/s_tr_set.cc:47, 50, 54, 126; apps/s_fo.cc:232): no sign -/
def isPArg : List Char → Bool
  | [] => false
  | c :: _ => c == '\'' || c == '"' || c == '(' || c == '{' || c == '.' || isDigit c

/-! ## Values -/

/-- `has_hard_value` (include/u_parameter.h) -/
def hard : Param → Bool
  | .unset => false
  | _ => true

/-- the value with a default (`e_val`); `ni` is `NOT_INPUT`; the values of texts are given from outside -/
def val (env : List Char → ℚ) (ni dflt : ℚ) : Param → ℚ
  | .unset => dflt
  | .num v => v
  | .na => ni
  | .text t => env t

/-! ## TRANSIENT -/

/-- an argument if there is one (apps/s_tr_set.cc:50-57, 126-129) -/
def next (look : List Char → Bool) (e : Env) (old : Param) (s : List Char) : Option (Param × List Char) :=
  if look s then parse e.units e.ci old s else some (old, s)

def St.set3 (st : St) (a b h : Param) : St := ((st.setPar .start a).setPar .stop b).setPar .strobe h

/-- The arguments (apps/s_tr_set.cc:59-119); `none`: an assertion fails.  `last` is `_sim->_last_time`. -/
def args (env : List Char → ℚ) (ni last : ℚ) (st : St) (a1 a2 a3 : Param) : Option St :=
  let v1 := val env ni 0 a1
  let v2 := val env ni 0 a2
  let v3 := val env ni 0 a3
  let range := val env ni ni (st.par .stop) - val env ni ni (st.par .start)
  if hard a3 then
    if hard a1 = true ∧ hard a2 = true then
      some (if v3 = 0 then st.set3 a3 a2 a1 else if v1 = 0 then st.set3 a1 a2 a3 else if v1 > v3 then st.set3 a1 a2 a3 else st.set3 a3 a2 a1)
    else none
  else if hard a2 then
    if hard a1 = true then
      some (if v1 = 0 then (st.setPar .start a1).setPar .stop a2
        else if v1 ≥ v2 then st.set3 (.num last) a1 a2
        else st.set3 .unset a2 a1)
    else none
  else if hard a1 then
    if v1 > last then some ((st.setPar .start (.num last)).setPar .stop a1)
    else if v1 = 0 then some ((st.setPar .start (.num 0)).setPar .stop (.num range))
    else if v1 > 0 then some (st.set3 (.num last) (.num (last + range)) a1)
    else none
  else none

/-- no arguments (apps/s_tr_set.cc:120-125) -/
def noArgs (env : List Char → ℚ) (ni last : ℚ) (st : St) : St :=
  (st.setPar .start (.num last)).setPar .stop (.num (last + (val env ni ni (st.par .stop) - val env ni ni (st.par .start))))

/-- reading the numbers (apps/s_tr_set.cc:47-129); `none` inside: an assertion fails -/
def numbers (e : Env) (env : List Char → ℚ) (ni last : ℚ) (st : St) (s : List Char) : Option (Option St × List Char) :=
  (if isPArg s then
    (parse e.units e.ci .unset s).bind fun a =>
      (next isPArg e .unset a.2).bind fun b =>
        (next isPArg e .unset b.2).map fun c => (args env ni last st a.1 b.1 c.1, c.2)
  else some (some (noArgs env ni last st), s)).bind fun x =>
    match x.1 with
    | none => some (none, x.2)
    | some st => (next isPArg e (st.par .dtmax) x.2).map fun d => (some (st.setPar .dtmax d.1), d.2)

/-- as numbers: what `TranSetModel` works on; defaults as after line 40 -/
def parOf (env : List Char → ℚ) (ni : ℚ) (p : Param) : TranSet.Par ℚ := ⟨val env ni ni p, hard p⟩

def St.nums (env : List Char → ℚ) (ni last : ℚ) (st : St) : TranSet.St ℚ :=
  { start := parOf env ni (st.par .start), stop := parOf env ni (st.par .stop), strobe := parOf env ni (st.par .strobe),
    dtmaxIn := parOf env ni (st.par .dtmax), dtminIn := parOf env ni (st.par .dtmin), dtratioIn := parOf env ni (st.par .dtratio),
    skipIn := parOf env ni (st.par .skip), last := last }

/-- how a command ended -/
inductive Cmd (ρ : Type) where
  | run (st : St) (r : ρ) (rest : List Char)
  | bad (st : St) (rest : List Char)
  | assertion
  | ub
  | running

/-- `TRANSIENT::setup` (apps/s_tr_set.cc:36-172); the end (132-172) on numbers, the defaults of `options` (220-223) first.  What is kept
of it: a strobe that is not positive is taken as not given (139-142). -/
def tran (e : Env) (env : List Char → ℚ) (c : TranSet.Cfg ℚ) (first plotOn : Bool) (last : ℚ) (st : St) (s : List Char) :
    Cmd (TranSet.Run ℚ) :=
  let last := if first then 0 else last
  match numbers e env c.ni last st s with
  | none => .ub
  | some (none, _) => .assertion
  | some (some st, s) =>
    match options e plotOn st s with
    | .ub => .ub
    | .running => .running
    | .done st rest =>
      match (TranSet.finish c (st.flag .cold) (TranSet.options c {} (st.nums env c.ni last))).2 with
      | none => .bad st rest
      | some r => .run (if val env c.ni c.ni (st.par .strobe) ≤ 0 then st.setPar .strobe .unset else st) r rest

/-! ## FOURIER -/

/-- `_fstart`, `_fstop`, `_fstep` (apps/s_fo.cc:61-63) -/
structure Fo where
  fstart : Param
  fstop : Param
  fstep : Param

/-- The arguments (apps/s_fo.cc:244-275); `none`: an assertion fails -/
def foArgs (env : List Char → ℚ) (ni : ℚ) (f : Fo) (a1 a2 a3 : Param) : Option Fo :=
  let v1 := val env ni 0 a1
  let v2 := val env ni 0 a2
  if hard a3 then if hard a1 = true ∧ hard a2 = true then some ⟨a1, a2, a3⟩ else none
  else if hard a2 then if hard a1 = true then some (if v1 ≥ v2 then ⟨.unset, a1, a2⟩ else ⟨.unset, a2, a1⟩) else none
  else if hard a1 then some (if v1 = 0 then { f with fstart := .num 0 } else ⟨.unset, .unset, a1⟩)
  else none

/-- reading them (apps/s_fo.cc:232-278): a sign is accepted from the second on -/
def foNumbers (e : Env) (env : List Char → ℚ) (ni : ℚ) (f : Fo) (s : List Char) : Option (Option Fo × List Char) :=
  if isPArg s then
    (parse e.units e.ci .unset s).bind fun a =>
      (next isArg e .unset a.2).bind fun b =>
        (next isArg e .unset b.2).map fun c => (foArgs env ni f a.1 b.1 c.1, c.2)
  else some (some f, s)

/-- `for (y = 1; x > 0; x >>= 1) { y <<= 1; }` (apps/s_fo.cc:349-357); an `int` here is as large as needed -/
def pow2 (x y : ℕ) : ℕ := if 0 < x then pow2 (x / 2) (2 * y) else y
termination_by x
decreasing_by omega

/-- a run: frequencies, points of the transform (`_timesteps - 1`), times and steps -/
structure FoRun where
  fstart : ℚ
  fstop : ℚ
  fstep : ℚ
  points : ℕ
  start : ℚ
  stop : ℚ
  strobe : ℚ
  dtmax : ℚ
  dtmin : ℚ
  cont : Bool

/-- The end of `FOURIER::setup` (apps/s_fo.cc:282-318); `none`: "frequency step = 0" -/
def foRun (env : List Char → ℚ) (c : TranSet.Cfg ℚ) (harmonics last : ℚ) (f : Fo) (st : St) : Option FoRun :=
  let fstep := val env c.ni 0 f.fstep
  let fstop := val env c.ni (harmonics * fstep) f.fstop
  if fstep = 0 then none
  else
    let fstop := if fstop = 0 then harmonics * fstep else fstop
    let points := pow2 ⌊fstop * 2 / fstep⌋.toNat 1
    let fresh : Bool := st.flag .cold || decide (last ≤ 0)
    let start := if fresh then 0 else last
    let strobe := 1 / fstep / points
    let dtmax := min (val env c.ni c.big (st.par .dtmax)) (strobe / val env c.ni 1 (st.par .skip))
    let ratio := val env c.ni c.dtratio (st.par .dtratio)
    let dtmin := if hard (st.par .dtmin) then val env c.ni c.dtmin (st.par .dtmin)
      else if hard (st.par .dtratio) then dtmax / ratio
      else max c.dtmin (dtmax / ratio)
    some ⟨val env c.ni 0 f.fstart, fstop, fstep, points, start, start + 1 / fstep, strobe, dtmax, dtmin, !fresh⟩

/-- how `FOURIER::setup` ended -/
inductive FoCmd where
  | run (f : Fo) (st : St) (r : FoRun) (rest : List Char)
  | bad
  | assertion
  | ub
  | running

/-- `FOURIER::setup` (apps/s_fo.cc:229-319) -/
def fourier (e : Env) (env : List Char → ℚ) (c : TranSet.Cfg ℚ) (harmonics : ℚ) (plotOn : Bool) (last : ℚ) (f : Fo) (st : St) (s : List Char) :
    FoCmd :=
  match foNumbers e env c.ni f s with
  | none => .ub
  | some (none, _) => .assertion
  | some (some f, s) =>
    match options e plotOn st s with
    | .ub => .ub
    | .running => .running
    | .done st rest =>
      match foRun env c harmonics last f st with
      | none => .bad
      | some r => .run (if val env c.ni (harmonics * r.fstep) f.fstop = 0 then { f with fstop := .num r.fstop } else f)
          (((st.setPar .start (.num r.start)).setPar .stop (.num r.stop)).setPar .strobe (.num r.strobe)) r rest

end Gnucap.TranCmd
