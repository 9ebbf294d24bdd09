import Verif.ScanModel
import Verif.SpiceModel
import Verif.DispatchModel

/-!
# Which command a line runs (model of c__cmd.cc and of the names installed)

A command is a number here; what it does is elsewhere.  The time it took (c__cmd.cc:95-98), the trace (41) and what is done behind
every command (99-105, see OutModel) are left out.
-/
namespace Gnucap.Cmd
open Gnucap.Scan Gnucap.Spice Gnucap.Dispatch

/-- what becomes of a line -/
inductive What where
  /-- a comment -/
  | nothing
  /-- `c->do_it(cmd, scope)`, the cursor at the text behind the name -/
  | runs (c : ℕ) (rest : List Char)
  /-- "what's this?" -/
  | whats
  /-- "bad command" -/
  | bad
  /-- `umatch` ran past its pattern -/
  | ub
deriving DecidableEq, Repr

/-- `ANTI_COMMENT` (md.h:78) -/
def antiComment : List Char := ['*', '>']
/-- `I_PROMPT` (md.h:76) -/
def prompt : List Char := ['g', 'n', 'u', 'c', 'a', 'p', '>', ' ']
/-- c__cmd.cc:56 -/
def comments : List Char := ['\'', '|', '*', '|', '#', '|', '/', '/', '|', '"']

/-- the short names (c__cmd.cc:57-73), the pattern and what it stands for -/
def shorts : List (List Char × List Char) := [
  (['b', '{', 'u', 'i', 'l', 'd', '}', ' '], ['b', 'u', 'i', 'l', 'd']),
  (['d', 'e', 'l', '{', 'e', 't', 'e', '}', ' '], ['d', 'e', 'l', 'e', 't', 'e']),
  (['f', 'o', '{', 'u', 'r', 'i', 'e', 'r', '}', ' '], ['f', 'o', 'u', 'r', 'i', 'e', 'r']),
  (['g', 'e', 'n', '{', 'e', 'r', 'a', 't', 'o', 'r', '}', ' '], ['g', 'e', 'n', 'e', 'r', 'a', 't', 'o', 'r']),
  (['i', 'n', 'c', '{', 'l', 'u', 'd', 'e', '}', ' '], ['i', 'n', 'c', 'l', 'u', 'd', 'e']),
  (['l', '{', 'i', 's', 't', '}', ' '], ['l', 'i', 's', 't']),
  (['m', '{', 'o', 'd', 'i', 'f', 'y', '}', ' '], ['m', 'o', 'd', 'i', 'f', 'y']),
  (['o', 'p', 't', '{', 'i', 'o', 'n', 's', '}', ' '], ['o', 'p', 't', 'i', 'o', 'n', 's']),
  (['p', 'a', 'r', '{', 'a', 'm', 'e', 't', 'e', 'r', '}', ' '], ['p', 'a', 'r', 'a', 'm']),
  (['p', 'r', '{', 'i', 'n', 't', '}', ' '], ['p', 'r', 'i', 'n', 't']),
  (['q', '{', 'u', 'i', 't', '}', ' '], ['q', 'u', 'i', 't']),
  (['s', 't', '{', 'a', 't', 'u', 's', '}', ' '], ['s', 't', 'a', 't', 'u', 's']),
  (['t', 'e', '{', 'm', 'p', 'e', 'r', 'a', 't', 'u', 'r', 'e', '}', ' '], ['t', 'e', 'm', 'p', 'e', 'r', 'a', 't', 'u', 'r', 'e']),
  (['t', 'r', '{', 'a', 'n', 's', 'i', 'e', 'n', 't', '}', ' '], ['t', 'r', 'a', 'n', 's', 'i', 'e', 'n', 't']),
  (['!'], ['s', 'y', 's', 't', 'e', 'm']),
  (['<'], ['<']),
  (['>'], ['>'])]

/-- `while (cmd.umatch(I_PROMPT))` (c__cmd.cc:46-48); every round uses up text, so the length of the text is fuel enough -/
def prompts (ci : Bool) : ℕ → List Char → List Char
  | 0, s => s
  | n + 1, s => match umatch ci prompt s with
    | .ok r => prompts ci n r
    | _ => s

/-- c__cmd.cc:45-48 -/
def strip (ci : Bool) (s : List Char) : List Char :=
  let s := match umatch ci antiComment s with | .ok r => r | _ => s
  prompts ci s.length s

/-- the chain of c__cmd.cc:57-77: the name, and the text behind it; none is undefined -/
def choose (ci : Bool) (s : List Char) : List (List Char × List Char) → Option (List Char × List Char)
  | [] => some (word s)                                                  -- 75
  | (p, n) :: l => match umatch ci p s with
    | .ok r => some (n, r)
    | .fail => choose ci s l
    | .ub => none

/-- `CMD::cmdproc` (c__cmd.cc:33-106), with the registry of the commands; the entries that looking a name up makes are null, and
left out -/
def proc (ci : Bool) (m : Map ℕ) (line : List Char) : What :=
  let s := strip ci line
  match umatch ci comments s with
  | .ub => .ub
  | .ok _ => .nothing                                                    -- 56, 79-80
  | .fail => match choose ci s shorts with
    | none => .ub
    | some ([], _) => .bad                                               -- 89-91: only `cmd >> s` gives an empty name
    | some (c :: n, rest) => match (lookup ci (c :: n) m).2 with         -- 82-88
      | some k => .runs k rest
      | none => .whats

/-- what the program installs into `command_dispatcher` before it starts, in the order of the files:
c_attach.cc:139, 240, 265; u_opt2.cc:340; c_file.cc:91, 93, 136, 181; c_exp.cc:44; c_system.cc:54, 66, 78; c_comand.cc:58, 73, 87,
102, 114; c_clear.cc:48; c_prbcmd.cc:136, 152, 169, 186; c_sweep.cc:145; s_fo.cc:360; lang_verilog.cc:906, 934, 945; c_genrat.cc:85;
c_list.cc:120, 134; s_tr.cc:31; c_help.cc:86; c_modify.cc:136, 144, 153, 165; lang_spice.cc:861, 875, 961, 972, 984, 1003, 1017,
1036, 1044, 1052, 1063, 1074; s_ac.cc:297; c_delete.cc:124; c_sim.cc:37, 45; c_status.cc:101; c_measure.cc:53; c_param.cc:120;
lang_spectre.cc:436, 450, 457, 465; s_dc.cc:619, 620 -/
def installed : List (List (List Char)) := [
  [['a', 't', 't', 'a', 'c', 'h'],
   ['l', 'o', 'a', 'd'],
   ['`', 'a', 't', 't', 'a', 'c', 'h'],
   ['`', 'l', 'o', 'a', 'd']],
  [['d', 'e', 't', 'a', 'c', 'h'],
   ['`', 'd', 'e', 't', 'a', 'c', 'h'],
   ['u', 'n', 'l', 'o', 'a', 'd'],
   ['`', 'u', 'n', 'l', 'o', 'a', 'd']],
  [['d', 'e', 't', 'a', 'c', 'h', '_', 'a', 'l', 'l'],
   ['`', 'd', 'e', 't', 'a', 'c', 'h', '_', 'a', 'l', 'l']],
  [['o', 'p', 't', 'i', 'o', 'n', 's'],
   ['s', 'e', 't'],
   ['w', 'i', 'd', 't', 'h'],
   ['`', 'o', 'p', 't', 'i', 'o', 'n', 's'],
   ['`', 's', 'e', 't']],
  [['i', 'n', 'c', 'l', 'u', 'd', 'e']],
  [['`', 'i', 'n', 'c', 'l', 'u', 'd', 'e']],
  [['l', 'o', 'g'],
   ['`', 'l', 'o', 'g']],
  [['>']],
  [['e', 'x', 'p'],
   ['e', 'v', 'a', 'l']],
  [['e', 'd', 'i', 't']],
  [['s', 'y', 's', 't', 'e', 'm'],
   ['!']],
  [['c', 'h', 'd', 'i', 'r'],
   ['c', 'd']],
  [['e', 'n', 'd'],
   ['`', 'e', 'n', 'd']],
  [['p', 'a', 'u', 's', 'e'],
   ['`', 'p', 'a', 'u', 's', 'e']],
  [['q', 'u', 'i', 't'],
   ['e', 'x', 'i', 't'],
   ['`', 'q', 'u', 'i', 't'],
   ['`', 'e', 'x', 'i', 't']],
  [['t', 'e', 'm', 'p', 'e', 'r', 'a', 't', 'u', 'r', 'e'],
   ['t', 'e', 'm', 'p'],
   ['`', 't', 'e', 'm', 'p', 'e', 'r', 'a', 't', 'u', 'r', 'e'],
   ['`', 't', 'e', 'm', 'p']],
  [['t', 'i', 't', 'l', 'e'],
   ['`', 't', 'i', 't', 'l', 'e']],
  [['c', 'l', 'e', 'a', 'r']],
  [['s', 't', 'o', 'r', 'e'],
   ['`', 's', 't', 'o', 'r', 'e']],
  [['a', 'l', 'a', 'r', 'm'],
   ['`', 'a', 'l', 'a', 'r', 'm']],
  [['i', 'p', 'l', 'o', 't'],
   ['p', 'l', 'o', 't'],
   ['`', 'i', 'p', 'l', 'o', 't'],
   ['`', 'p', 'l', 'o', 't']],
  [['i', 'p', 'r', 'i', 'n', 't'],
   ['p', 'r', 'i', 'n', 't'],
   ['p', 'r', 'o', 'b', 'e'],
   ['`', 'i', 'p', 'r', 'i', 'n', 't'],
   ['`', 'p', 'r', 'i', 'n', 't'],
   ['`', 'p', 'r', 'o', 'b', 'e']],
  [['s', 'w', 'e', 'e', 'p']],
  [['f', 'o', 'u', 'r', 'i', 'e', 'r'],
   ['`', 'f', 'o', 'u', 'r', 'i', 'e', 'r']],
  [['p', 'a', 'r', 'a', 'm', 's', 'e', 't']],
  [['m', 'o', 'd', 'u', 'l', 'e'],
   ['m', 'a', 'c', 'r', 'o', 'm', 'o', 'd', 'u', 'l', 'e']],
  [['v', 'e', 'r', 'i', 'l', 'o', 'g']],
  [['g', 'e', 'n', 'e', 'r', 'a', 't', 'o', 'r']],
  [['l', 'i', 's', 't']],
  [['s', 'a', 'v', 'e']],
  [['t', 'r', 'a', 'n', 's', 'i', 'e', 'n', 't'],
   ['`', 't', 'r'],
   ['`', 't', 'r', 'a', 'n'],
   ['`', 't', 'r', 'a', 'n', 's', 'i', 'e', 'n', 't']],
  [['h', 'e', 'l', 'p']],
  [['m', 'o', 'd', 'i', 'f', 'y'],
   ['a', 'l', 't', 'e', 'r']],
  [['f', 'a', 'u', 'l', 't']],
  [['r', 'e', 's', 't', 'o', 'r', 'e']],
  [['u', 'n', 'f', 'a', 'u', 'l', 't']],
  [['.', 'm', 'o', 'd', 'e', 'l']],
  [['.', 's', 'u', 'b', 'c', 'k', 't'],
   ['.', 'm', 'a', 'c', 'r', 'o']],
  [['.', 'l', 'i', 'b'],
   ['l', 'i', 'b']],
  [['.', 'i', 'n', 'c', 'l', 'u', 'd', 'e']],
  [['.', 'm', 'e', 'r', 'g', 'e'],
   ['m', 'e', 'r', 'g', 'e']],
  [['<']],
  [['.', 'g', 'e', 't'],
   ['g', 'e', 't']],
  [['.', 'b', 'u', 'i', 'l', 'd'],
   ['b', 'u', 'i', 'l', 'd']],
  [['s', 'p', 'i', 'c', 'e'],
   ['`', 's', 'p', 'i', 'c', 'e']],
  [['a', 'c', 's']],
  [['.', 'e', 'n', 'd', 'c']],
  [['.', 'c', 'o', 'n', 't', 'r', 'o', 'l']],
  [['a', 'c'],
   ['`', 'a', 'c']],
  [['d', 'e', 'l', 'e', 't', 'e'],
   ['r', 'm'],
   ['`', 'd', 'e', 'l', 'e', 't', 'e'],
   ['`', 'r', 'm']],
  [['m', 'a', 'r', 'k'],
   ['f', 'r', 'e', 'e', 'z', 'e']],
  [['u', 'n', 'm', 'a', 'r', 'k'],
   ['u', 'n', 'f', 'r', 'e', 'e', 'z', 'e']],
  [['s', 't', 'a', 't', 'u', 's']],
  [['m', 'e', 'a', 's', 'u', 'r', 'e'],
   ['`', 'm', 'e', 'a', 's', 'u', 'r', 'e']],
  [['p', 'a', 'r', 'a', 'm'],
   ['p', 'a', 'r', 'a', 'm', 'e', 't', 'e', 'r', 's'],
   ['p', 'a', 'r', 'a', 'm', 'e', 't', 'e', 'r']],
  [['m', 'o', 'd', 'e', 'l']],
  [['s', 'u', 'b', 'c', 'k', 't']],
  [['s', 'i', 'm', 'u', 'l', 'a', 't', 'o', 'r']],
  [['s', 'p', 'e', 'c', 't', 'r', 'e'],
   ['`', 's', 'p', 'e', 'c', 't', 'r', 'e']],
  [['d', 'c'],
   ['`', 'd', 'c']],
  [['o', 'p'],
   ['`', 'o', 'p']]]

/-- the names of one plugin as they are written there -/
def barred (l : List (List Char)) : List Char := List.intercalate ['|'] l

/-- the registry when the program starts: one command for each entry, numbered from 0 -/
def booted : Map ℕ := (installed.zipIdx).foldl (fun m e => install (barred e.1) e.2 m) []

end Gnucap.Cmd
