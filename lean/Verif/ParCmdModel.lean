import Verif.AnaCmdModel
import Verif.ParamModel

/-!
# The command `param` (model)

`CMD_PARAM::do_it` and `parse` (apps/c_param.cc:31-120) on the text behind the name of the command.  A value is read by
`PARAMETER<T>::obsolete_parse` (`AnaCmd.parse`, for `Float` and `vReal`, which share `Float::parse`).  What a line that begins with
`integer` or `string` does is followed up to the type and the text behind it.  Messages are left out: `rest` not empty is "syntax error"
(104).  Printing the list is left out.
-/
namespace Gnucap.ParCmd
open Gnucap.Scan Gnucap.Spice Gnucap.Num Gnucap.Param Gnucap.Expr
open Gnucap.AnaCmd (Param parse)

/-- `OPT::units`, `OPT::case_insensitive`, `Scope->is_verilog_math()` -/
structure Opts where
  units : Units
  ci : Bool
  verilog : Bool

/-- what is kept as a parameter: `_s` and `_v` (include/u_parameter.h:122-130, 633-650) -/
def inst (ty : Ty) : Param → Gnucap.Param.Inst
  | .unset => ⟨ty, [], none⟩
  | .num v => ⟨ty, ['#'], some (if ty = .vreal then .vreal v else .flt v)⟩
  | .na => ⟨ty, ['#'], none⟩
  | .text t => ⟨ty, t, none⟩

/-- `cmd.is_alpha() || cmd.match1('_')` (c_param.cc:83) -/
def nameHead : List Char → Bool
  | [] => false
  | c :: _ => isAlpha c || c == '_'

/-- how the command ended: the list was printed; the list after it, with the text that is left; a line of another type; undefined
behaviour in the scanner; still in the loop -/
inductive End where
  | print
  | done (f : Frame) (rest : List Char)
  | typed (ty : Ty) (rest : List Char)
  | ub
  | running

/-- The loop (c_param.cc:81-103), `here` is how much text there was at the last look, `n` bounds the rounds.  `par` is made once, before
the loop (34-77). -/
def pairs (o : Opts) (ty : Ty) : ℕ → Param → ℕ → Frame → List Char → End
  | 0, _, _, _, _ => .running
  | n + 1, par, here, f, s =>
    if nameHead (skipbl s) then
      let w := word (skipbl s)
      match parse o.units o.ci par (skip1b ['='] w.2).2 with
      | none => .ub
      | some (par, r) =>
        if r.length < here then pairs o ty n par r.length (f.put (fold o.ci w.1) (inst ty par)) r
        else .done f (skipbl r)
    else .done f (skipbl s)

/-- the loop, with rounds enough (`pairs_end`) -/
def lines (o : Opts) (ty : Ty) (f : Frame) (s : List Char) : End := pairs o ty (s.length + 1) .unset s.length f s

/-- `CMD_PARAM::do_it` with `parse` (c_param.cc:31-116) -/
def command (o : Opts) (f : Frame) (s : List Char) : End :=
  if skipbl s = [] then .print
  else
    let real : Ty := if o.verilog then .vreal else .flt
    match umatch o.ci ['r', 'e', 'a', 'l'] s with
    | .ok r => lines o real f r
    | .ub => .ub
    | .fail =>
      match umatch o.ci ['i', 'n', 't', 'e', 'g', 'e', 'r'] s with
      | .ok r => .typed (if o.verilog then .vint else .int) r
      | .ub => .ub
      | .fail =>
        match umatch o.ci ['s', 't', 'r', 'i', 'n', 'g'] s with
        | .ok r => .typed .vstr r
        | .ub => .ub
        | .fail => lines o real f s

end Gnucap.ParCmd
