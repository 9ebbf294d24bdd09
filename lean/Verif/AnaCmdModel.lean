import Verif.OptModel
import Verif.SweepModel

/-!
# The command lines of the AC, OP and DC analyses (model)

`AC::setup` up to the evaluation of the arguments (apps/s_ac.cc:114-173), `OP::setup` (apps/s_dc.cc:240-277), `DC::setup`
(279-335) and `DCOP::options` (411-446), with `PARAMETER<double>::obsolete_parse` (include/u_parameter.h:628-653),
`Float::parse` (lib/m_base_in.cc:47-59) and the forms of `Get` and `Set` (include/u_parameter.h:673-682, lib/ap_get.cc:30-45,
65-81, include/ap.h:193-202).  What the sweeps do with the numbers is `SweepModel`.

The text is that behind the name of the command, without blanks in front.  `outset` (lib/io_contr.cc:101-152) is the text it
leaves, whatever it does.  `findbranch` and the look up of parameters are functions given from outside; a name that is not
found leaves the cursor where it was.  The values of texts (expressions and names of parameters) are given from outside.
-/
namespace Gnucap.AnaCmd
open Gnucap.Scan Gnucap.Spice Gnucap.Num

export Gnucap.Sweep (Mode)

/-! ## Arguments -/

/-- A `PARAMETER<double>`: `_s` is empty, `"#"` with a number, `"#"` with `NOT_INPUT`, or a text to be evaluated
(include/u_parameter.h:96-104, 122-130). -/
inductive Param where
  | unset
  | num (v : ℚ)
  | na
  | text (t : List Char)
  deriving DecidableEq

/-- the quotes of include/u_parameter.h:639 -/
def quotes : List (Char × Char) := [('\'', '\''), ('{', '}'), ('"', '"')]

/-- `obsolete_parse` (include/u_parameter.h:628-653) with `Float::parse` (lib/m_base_in.cc:47-59); `none`: undefined behaviour
in the scanner.  `cmd` is good after `ctos` if there is a text (lib/ap_convert.cc:127; a quoted text that ends with a
backslash at the end of the line counts as one). -/
def parse (u : Units) (ci : Bool) (old : Param) (s : List Char) : Option (Param × List Char) :=
  match umatch ci ['N', 'A'] s with
  | .ok r => some (.na, r)
  | .ub => none
  | .fail =>
    match ctof u s with
    | .num v r => some (.num v, r)
    | .ub => none
    | .none r =>
      let w := ctos [',', '=', '(', ')', ';'] quotes r
      if w.1 = [] then some (old, w.2)
      else if match1 ['('] w.2 then
        let a := ctos [] [('(', ')')] w.2
        some (if w.1 = ['N', 'A'] then .unset else .text (w.1 ++ '(' :: (a.1 ++ [')'])), a.2)
      else some (if w.1 = ['N', 'A'] then .unset else .text w.1, w.2)

/-- `Cmd.match1("'\"({") || Cmd.is_float()` (apps/s_ac.cc:135, 137, 142; apps/s_dc.cc:253, 255, 320, 417, 418) -/
def isArg : List Char → Bool
  | [] => false
  | c :: _ => c == '\'' || c == '"' || c == '(' || c == '{' || isFloat c

/-- The value (`e_val`, include/u_parameter.h:550-598), with the default; `none`: `NOT_INPUT`. -/
def Param.val (env : List Char → ℚ) (dflt : ℚ) : Param → Option ℚ
  | .unset => some dflt
  | .num v => some v
  | .na => none
  | .text t => some (env t)

/-! ## Options -/

inductive Flag where
  | plot | prevop | cont | loop | reverse
  deriving DecidableEq

/-- `TRACE` (include/mode.h) as far as the command sets it -/
inductive Trace where
  | none | under | iteration | verbose
  deriving DecidableEq

/-- What a line sets: one sweep (`_start`, `_stop`, `_step_in`, `_stepmode`), `_sim->_temp_c`, the flags and `_trace`. -/
structure St where
  start : Param
  stop : Param
  stepIn : Param
  mode : Mode
  temp : ℚ
  flag : Flag → Bool
  trace : Trace

/-- What is given from outside: `OPT::units`, `OPT::case_insensitive`, `OPT::temp_c`, and the text `outset` leaves. -/
structure Env where
  units : Units
  ci : Bool
  optTemp : ℚ
  outset : List Char → List Char

/-- What a word is for -/
inductive Act where
  | step (m : Mode)
  | start
  | stop
  | dtemp
  | temp
  | flag (f : Flag)
  | trace
  deriving DecidableEq

/-- The words for steps (apps/s_ac.cc:126-133, 152-159; apps/s_dc.cc:419-426) -/
def stepTable : List (List Char × Act) := [
  (['*'], .step .times),
  (['+'], .step .linStep),
  (['b', 'y'], .step .linStep),
  (['s', 't', 'e', 'p'], .step .linStep),
  (['d', '{', 'e', 'c', 'a', 'd', 'e', '}'], .step .decade),
  (['t', 'i', '{', 'm', 'e', 's', '}'], .step .times),
  (['l', 'i', 'n'], .step .linPts),
  (['o', '{', 'c', 't', 'a', 'v', 'e', '}'], .step .octave)]

/-- `AC::setup` (apps/s_ac.cc:152-165) -/
def acTable : List (List Char × Act) := stepTable ++ [
  (['d', 't', '{', 'e', 'm', 'p', '}'], .dtemp),
  (['p', 'l', '{', 'o', 't', '}'], .flag .plot),
  (['p', 'r', '{', 'e', 'v', 'o', 'p', 'p', 'o', 'i', 'n', 't', '}'], .flag .prevop),
  (['s', 't', 'a', '{', 'r', 't', '}'], .start),
  (['s', 't', 'o', '{', 'p', '}'], .stop),
  (['t', 'e', '{', 'm', 'p', 'e', 'r', 'a', 't', 'u', 'r', 'e', '}'], .temp)]

/-- `DCOP::options` (apps/s_dc.cc:419-442) -/
def dcTable : List (List Char × Act) := stepTable ++ [
  (['c', '{', 'o', 'n', 't', 'i', 'n', 'u', 'e', '}'], .flag .cont),
  (['d', 't', '{', 'e', 'm', 'p', '}'], .dtemp),
  (['l', 'o', '{', 'o', 'p', '}'], .flag .loop),
  (['r', 'e', '{', 'v', 'e', 'r', 's', 'e', '}'], .flag .reverse),
  (['t', 'e', '{', 'm', 'p', 'e', 'r', 'a', 't', 'u', 'r', 'e', '}'], .temp),
  (['t', 'r', '{', 'a', 'c', 'e', '}'], .trace)]

/-- The choices behind `trace` (apps/s_dc.cc:434-438), numbered as in `traceOf` -/
def traceWords : List (List Char × ℤ) := [
  (['n', '{', 'o', 'n', 'e', '}'], 0),
  (['o', '{', 'f', 'f', '}'], 0),
  (['w', '{', 'a', 'r', 'n', 'i', 'n', 'g', 's', '}'], 1),
  (['i', '{', 't', 'e', 'r', 'a', 't', 'i', 'o', 'n', 's', '}'], 2),
  (['v', '{', 'e', 'r', 'b', 'o', 's', 'e', '}'], 3)]

def traceOf : ℤ → Trace
  | 1 => .under
  | 2 => .iteration
  | 3 => .verbose
  | _ => .none

/-- `key + " {=}"` (include/u_parameter.h:676, lib/ap_get.cc:67, apps/s_dc.cc:432), `key + ' '` for a flag (lib/ap_get.cc:32) -/
def Act.pattern (key : List Char) : Act → List Char
  | .flag _ => key ++ [' ']
  | _ => key ++ [' ', '{', '=', '}']

def St.setFlag (st : St) (f : Flag) (b : Bool) : St := { st with flag := Function.update st.flag f b }

/-- What is done with the text behind the word -/
def Act.run (e : Env) (st : St) (r : List Char) : Act → Option (St × List Char)
  | .step m => (parse e.units e.ci st.stepIn r).map fun x => ({ st with stepIn := x.1, mode := m }, x.2)
  | .start => (parse e.units e.ci st.start r).map fun x => ({ st with start := x.1 }, x.2)
  | .stop => (parse e.units e.ci st.stop r).map fun x => ({ st with stop := x.1 }, x.2)
  | .dtemp => (Opt.number e.units r).map fun x => ({ st with temp := x.1 + e.optTemp }, x.2)
  | .temp => (Opt.number e.units r).map fun x => ({ st with temp := x.1 }, x.2)
  | .flag f =>
    if (skip1b ['='] r).1 then
      let b := Opt.ctob e.ci (skip1b ['='] r).2
      some (st.setFlag f b.1, b.2)
    else some (st.setFlag f true, (skip1b ['='] r).2)
  | .trace =>
    match Opt.choose e.ci r traceWords with
    | some (z, r) => some ({ st with trace := traceOf z }, r)
    | none => some (st, e.outset r)

/-- The alternatives in order, `outset` last -/
def tryAll (e : Env) (st : St) (s : List Char) : List (List Char × Act) → Option (St × List Char)
  | [] => some (st, e.outset s)
  | (key, a) :: l =>
    match umatch e.ci (a.pattern key) s with
    | .ok r => a.run e st r
    | .ub => none
    | .fail =>
      match a with
      | .flag f =>
        match umatch e.ci (['n', 'o'] ++ key) s with
        | .ok r => some (st.setFlag f false, r)
        | .ub => none
        | .fail => tryAll e st s l
      | _ => tryAll e st s l

/-- One round; with `lead` a number or an expression is a step (apps/s_dc.cc:417-418) -/
def round (lead : Bool) (table : List (List Char × Act)) (e : Env) (st : St) (s : List Char) : Option (St × List Char) :=
  if lead = true ∧ isArg s = true then
    (parse e.units e.ci st.stepIn s).map fun x => ({ st with stepIn := x.1, mode := .linStep }, x.2)
  else tryAll e st s table

/-- how the loop ended -/
inductive End (α : Type) where
  | done (st : α) (rest : List Char)
  | ub
  | running

/-- The loop (apps/s_ac.cc:149-168, apps/s_dc.cc:414-445); `here` is how much text there was at the last look, `n` bounds the
rounds.  `more` skips blanks, `stuck` compares (include/ap.h:73, 86). -/
def loop (lead : Bool) (table : List (List Char × Act)) (e : Env) : ℕ → St → ℕ → List Char → End St
  | 0, _, _, _ => .running
  | n + 1, st, here, s =>
    match round lead table e st s with
    | none => .ub
    | some (st', r) =>
      if skipbl r = [] then .done st' []
      else if (skipbl r).length < here then loop lead table e n st' (skipbl r).length (skipbl r)
      else .done st' (skipbl r)

/-- the loop, with rounds enough (`loop_ends`) -/
def options (lead : Bool) (table : List (List Char × Act)) (e : Env) (st : St) (s : List Char) : End St :=
  loop lead table e (s.length + 1) st s.length s

/-! ## AC and OP -/

/-- Start, stop, and for AC a step (apps/s_ac.cc:135-147; apps/s_dc.cc:253-261) -/
def numbers (third : Bool) (e : Env) (st : St) (s : List Char) : Option (St × List Char) :=
  if isArg s then
    (parse e.units e.ci st.start s).bind fun a =>
      (if isArg a.2 then parse e.units e.ci st.stop a.2 else some a).bind fun b =>
        if third = true ∧ isArg b.2 = true then
          (parse e.units e.ci st.stepIn b.2).map fun c => ({ st with start := a.1, stop := b.1, stepIn := c.1, mode := .linStep }, c.2)
        else some ({ st with start := a.1, stop := b.1 }, b.2)
  else some (st, s)

/-- `AC::setup` (apps/s_ac.cc:123-168).  `plotOn`: `IO::plotset && plotlist().size() > 0`. -/
def ac (e : Env) (plotOn : Bool) (st : St) (s : List Char) : End St :=
  match tryAll { e with outset := id } (st.setFlag .plot plotOn) s stepTable with
  | none => .ub
  | some (st, s) =>
    match numbers true e st s with
    | none => .ub
    | some (st, s) => options false acTable e st s

/-- `OP::setup` (apps/s_dc.cc:242-266); `options` clears two flags (413). -/
def op (e : Env) (st : St) (s : List Char) : End St :=
  match numbers false e { st.setFlag .cont false with temp := e.optTemp, trace := .none } s with
  | none => .ub
  | some (st, s) => options true dcTable e ((st.setFlag .loop false).setFlag .reverse false) s

/-! ## DC -/

/-- What is kept of a level: `_start`, `_stop`, `_step_in`, `_stepmode`, `_loop`, `_reverse_in` and what is swept. -/
structure Lev where
  start : Param
  stop : Param
  stepIn : Param
  mode : Mode
  loop : Bool
  reverse : Bool
  target : Sweep.Target (List Char)

/-- The state of the analysis: the levels, `_n_sweeps`, `_sim->_temp_c`, `_cont`, `_trace`. -/
structure Dc where
  lev : ℕ → Lev
  n : ℕ
  temp : ℚ
  cont : Bool
  trace : Trace

/-- What the circuit knows: `findbranch` (whether the card is an element, its number, the text behind; none: not found) and the
parameters with a hard value (number and text). -/
structure Ckt where
  find : List Char → Option (Bool × ℕ × List Char)
  hard : List Char → Option ℕ
  val : ℕ → List Char

def isFloatHead : List Char → Bool
  | [] => false
  | c :: _ => isFloat c

def isAlphaHead : List Char → Bool
  | [] => false
  | c :: _ => isAlpha c

/-- What is swept (apps/s_dc.cc:291-318), and the text behind; `none`: "can't sweep" is thrown (298). -/
def target (k : Ckt) (s : List Char) : Option (Sweep.Arg × List Char) :=
  match k.find s with
  | some (true, i, r) => some (.element i, r)
  | some (false, _, _) => none
  | none =>
    if isFloatHead s then some (.number, s)
    else if isAlphaHead s then
      match k.hard (word s).1 with
      | some p => some (.param p, (word s).2)
      | none => some (.other, s)
    else some (.other, s)

/-- Start and stop (apps/s_dc.cc:320-328); the stop is read without a look at what is there. -/
def range (e : Env) (st : St) (s : List Char) : Option (St × List Char) :=
  if isArg s then
    (parse e.units e.ci .unset s).bind fun a =>
      (parse e.units e.ci .unset a.2).map fun b => ({ st with start := a.1, stop := b.1 }, b.2)
  else some (st, s)

/-- a level as the options see it (apps/s_dc.cc:413) -/
def Dc.st (d : Dc) (i : ℕ) : St :=
  { start := (d.lev i).start, stop := (d.lev i).stop, stepIn := (d.lev i).stepIn, mode := (d.lev i).mode, temp := d.temp,
    flag := fun f => match f with | .cont => d.cont | _ => false, trace := d.trace }

/-- and back -/
def Dc.put (d : Dc) (i : ℕ) (t : Sweep.Target (List Char)) (st : St) : Dc :=
  { lev := Function.update d.lev i ⟨st.start, st.stop, st.stepIn, st.mode, st.flag .loop, st.flag .reverse, t⟩, n := d.n, temp := st.temp,
    cont := st.flag .cont, trace := st.trace }

/-- how the command ended -/
inductive DcEnd where
  | done (d : Dc) (rest : List Char)
  | cantSweep
  | ub
  | running

/-- One level (apps/s_dc.cc:291-331) -/
def level (e : Env) (k : Ckt) (d : Dc) (i : ℕ) (s : List Char) : DcEnd :=
  match target k s with
  | none => .cantSweep
  | some (a, r) =>
    match range e (d.st i) r with
    | none => .ub
    | some (st, r) =>
      match options true dcTable e st r with
      | .done st r => .done (d.put i (Sweep.choose k.val (d.lev i).target a) st) r
      | .ub => .ub
      | .running => .running

/-- The loop over the levels (apps/s_dc.cc:290-332), for `m` levels from level `i` on -/
def levels (e : Env) (k : Ckt) : ℕ → ℕ → Dc → List Char → DcEnd
  | 0, i, d, s => .done { d with n := i } s
  | m + 1, i, d, s =>
    if skipbl s = [] then .done { d with n := i } []
    else
      match level e k d i (skipbl s) with
      | .done d r => levels e k m (i + 1) d r
      | x => x

/-- `DC::setup` (apps/s_dc.cc:281-335); `DCNEST` is 4 (116). -/
def dc (e : Env) (k : Ckt) (d : Dc) (s : List Char) : DcEnd :=
  let d := { d with temp := e.optTemp, cont := false, trace := .none }
  if skipbl s = [] then .done d [] else levels e k 4 0 d s

end Gnucap.AnaCmd
