import Verif.NameModel
import Verif.SpiceModel

/-!
# The commands `list` and `save`: which parts are listed (model)

`list_save` (c_list.cc:33-108) with `findbranch` on a text (findbr.cc:39-107).  The text is that behind the name of the command
(behind the name of the file for `save`).  A part is given by its place, as in `NameModel`.  How a part is printed, the title,
and `precalc_first` are left out; so is the run mode (in preset mode nothing is listed, c_list.cc:45-47).
-/
namespace Gnucap.ListCmd
open Gnucap.Scan Gnucap.Spice Gnucap.Names

/-- `cmd.ctostr(labelwanted, BUFLEN, TOKENTERM)` (findbr.cc:43-44; ap_convert.cc:56-69; constant.h:108) for names shorter than
`BUFLEN`: the name and the text that follows -/
def label (s : List Char) : Name × List Char := ctos [',', '=', '(', ')', '[', ']'] [] s

/-- `findbranch(cmd, here)` (findbr.cc:39-107), `here` being position `start` of the list at `path`: the place found and the
text behind the name; nothing found leaves the text as it was -/
def find (ci : Bool) (root : List Part) (s : List Char) (path : List ℕ) (start : ℕ) : Option (List ℕ × List Char) :=
  (findBranch ci (label s).1.length (label s).1 (partsAt root path) start path).map fun r => (r, (label s).2)

/-- What comes of the command: the places listed; "can't find" (nothing is listed then); or a comparison of positions of two
different lists, made after the first is listed (e_cardlist.h:70-71; undefined if not stopped by the assertion) -/
inductive Out where
  | done (l : List (List ℕ))
  | cant
  | mixed
  deriving DecidableEq

mutual
/-- the number of cards in a part, itself included -/
def weight : Part → ℕ
  | .mk _ _ _ _ ps => 1 + weights ps
/-- the number of cards in a list, those inside included -/
def weights : List Part → ℕ
  | [] => 0
  | p :: ps => weight p + weights ps
end

/-- places `i`, `i+1`, .. `j` of the list at `path` -/
def between (path : List ℕ) (i j : ℕ) : List (List ℕ) := (List.range' i (j + 1 - i)).map fun k => path ++ [k]

/-- the loops over the arguments and over all that match an argument (c_list.cc:95-105), from the search for an argument on; `n`
bounds the number of arguments -/
def args (ci : Bool) (root : List Part) : ℕ → List Char → List (List ℕ)
  | 0, _ => []
  | n + 1, s =>
    match find ci root s [] 0 with
    | none => []
    | some (_, t) => modifyHits ci (label s).1 root (weights root + 1) [] 0 ++ args ci root n t

/-- behind the first position (c_list.cc:77-106): a range, or a list of arguments.  `s` is the text of the first argument -/
def behind (ci : Bool) (root : List Part) (s : List Char) (here : List ℕ) (t : List Char) : Out :=
  if match1 ['-'] t then
    let path := here.dropLast
    let i := here.getLast?.getD 0
    if skipbl t.tail = [] then .done (between path i ((partsAt root path).length - 1))
    else
      match find ci root (skipbl t.tail) path (i + 1) with
      | none => .cant
      | some (stop, _) =>
        if stop.dropLast = path then .done (between path i (stop.getLast?.getD 0)) else .mixed
  else .done (args ci root (s.length + 1) s)

/-- `list_save` (c_list.cc:63-107) -/
def list (ci : Bool) (root : List Part) (s : List Char) : Out :=
  if skipbl s = [] then .done ((List.range root.length).map fun k => [k])
  else if match1 ['-'] (skipbl s) then
    if root = [] then .cant else behind ci root (skipbl s) [0] (skipbl s)
  else
    match find ci root (skipbl s) [] 0 with
    | none => .cant
    | some (here, t) => behind ci root (skipbl s) here t

end Gnucap.ListCmd
