import Verif.OptModel
import Verif.VlogModel

/-!
# Reading and listing in Spectre (C78)

Models lang_spectre.cc: where the type of a device is found, instances with their nodes in parentheses or without, the header of a
subcircuit, models, and their listing.  Text as in `ScanModel`: the cursor is the text from there on, so a later cursor is a shorter
text; what is set in the device is the result, in order.  Left out: current ports, devices that list through the obsolete callback,
warnings, `get_line`, and what a device does with what it is given.
-/
namespace Gnucap.Spectre
open Gnucap.Scan Gnucap.Spice Gnucap.Opt Gnucap.Vlog

/-! ## the type -/

/-- `CS::scan` (ap_match.cc:89-104); every round takes something, so the first argument does not end it -/
def scan (ci : Bool) (pat : List Char) : ℕ → List Char → Option (List Char)
  | 0, _ => none
  | n + 1, s =>
    match umatch ci pat s with
    | .ok r => some r
    | _ => if skipbl s = [] then none else scan ci pat n (skiparg (skipbl s))

/-- what a line is -/
inductive What where
  | comment
  | control
  | type (name : List Char)
deriving DecidableEq

/-- the condition of the loop (lang_spectre.cc:285) -/
def goesOn (h2 h3 : List Char) : Bool := decide (h2.length ≠ h3.length) && !match1 ['='] h3

/-- the loop that looks for `=` and keeps the last three cursors (lang_spectre.cc:279-291); it gives the first of them.  Every round
but the last takes something (`search_ends`). -/
def backUp : ℕ → List Char → List Char → List Char → List Char
  | 0, h1, _, _ => h1
  | n + 1, h1, h2, h3 => if goesOn h2 h3 then backUp n h2 h3 (skiparg h3) else h1

/-- `*|//` -/
def commentPat : List Char := ['*', '|', '/', '/']
/-- `model |simulator |parameters |subckt ` -/
def controlPat : List Char :=
  ['m', 'o', 'd', 'e', 'l', ' ', '|', 's', 'i', 'm', 'u', 'l', 'a', 't', 'o', 'r', ' ', '|',
   'p', 'a', 'r', 'a', 'm', 'e', 't', 'e', 'r', 's', ' ', '|', 's', 'u', 'b', 'c', 'k', 't', ' ']

/-- `find_type_in_string` (lang_spectre.cc:258-303) in the whole line: what it is, and the text at the cursor it leaves -/
def findType (ci : Bool) (full : List Char) : What × List Char :=
  if hits ci commentPat (skipbl full) then (.comment, full)                                     -- 265-267
  else if hits ci controlPat (skipbl full) then (.control, full)                                -- 268-270
  else
    let a := skiparg full
    match (if match1 ['('] a then scan ci [')'] (a.length + 1) a else none) with                -- 271-276
    | some r => (.type (word r).1, r)
    | none =>
      match scan ci ['='] (full.length + 1) full with
      | some _ =>                                                                               -- 277-293
        let h := backUp (full.length + 1) a (skiparg a) (skiparg (skiparg a))
        (.type (word h).1, h)
      | none => (.type (word a).1, a)                                                           -- 294-300

/-! ## ports -/

/-- the nodes in parentheses (lang_spectre.cc:113-133) of an instance; from `max_nodes` on they are refused (e_compon.cc:473-486).  A
letter or digit begins a word, so every round takes something. -/
def portsIn (max : ℕ) : ℕ → List (List Char) → List Char → List (List Char) × List Char
  | 0, acc, s => (acc, s)
  | n + 1, acc, s =>
    match s with
    | [] => (acc, s)
    | c :: _ =>
      if alnumAt c then portsIn max n (if acc.length < max then acc ++ [(word s).1] else acc) (word s).2
      else (acc, s)

/-- the nodes up to the type (lang_spectre.cc:141-161), `stop` the length of the text from there on; `none`: not done yet -/
def portsBare (max stop : ℕ) : ℕ → List (List Char) → List Char → Option (List (List Char) × List Char)
  | 0, _, _ => none
  | n + 1, acc, s =>
    if stop < s.length then portsBare max stop n (if acc.length < max then acc ++ [(word s).1] else acc) (word s).2
    else some (acc, s)

/-- `parse_ports` of an instance (lang_spectre.cc:107-170, `all_new` false), for at most `n` rounds; the nodes missing are grounded -/
def ports (ci : Bool) (max min n : ℕ) (full s : List Char) : Option (List (List Char) × List Char) :=
  let p := skip1b ['('] s
  let l :=
    if p.1 then
      let l := portsIn max (p.2.length + 1) [] p.2
      some (l.1, (skip1b [')'] l.2).2)
    else portsBare max (findType ci full).2.length n [] p.2
  l.map fun l => (l.1 ++ List.replicate (min - l.1.length) ['0'], l.2)

/-! ## parameters -/

/-- `parse_args` (lang_spectre.cc:78-93): what is set, and the text left over; `last` is the cursor of the round before -/
def args : ℕ → ℕ → List Char → List (List Char × List Char) × List Char
  | 0, _, s => ([], s)
  | n + 1, last, s =>
    if skipbl s = [] then ([], skipbl s)
    else if last ≤ (skipbl s).length then ([], skipbl s)
    else
      let nm := ctos ['='] [] (skipbl s)
      let v := ctos [] [('(', ')')] (skip1b ['='] nm.2).2
      let t := args n (skipbl s).length v.2
      ((nm.1, v.1) :: t.1, t.2)

/-! ## lines -/

/-- what an instance gives; no label: one is made up (lang_spectre.cc:101-103) -/
structure Read where
  label : Option (List Char)
  ports : List (List Char)
  type : List Char
  args : List (List Char × List Char)
  rest : List Char
deriving DecidableEq

/-- a label, if there is one (lang_spectre.cc:95-105) -/
def named (w : List Char) : Option (List Char) := if w = [] then none else some w

/-- `parse_instance` (lang_spectre.cc:246-256) -/
def parseInst (ci : Bool) (max min n : ℕ) (full : List Char) : Option Read :=
  let l := word full
  (ports ci max min n full l.2).map fun p =>
    let t := word p.2
    let g := args (t.2.length + 1) full.length t.2
    ⟨named l.1, p.1, t.1, g.1, g.2⟩

/-- `parse_paramset` (lang_spectre.cc:211-221): label, type, parameters, the text left over -/
def parseModel (ci : Bool) (full : List Char) : Option (List Char) × List Char × List (List Char × List Char) × List Char :=
  let r := match umatch ci ['m', 'o', 'd', 'e', 'l', ' '] (skipbl full) with | .ok r => r | _ => skipbl full
  let l := word r
  let t := word l.2
  let g := args (t.2.length + 1) full.length t.2
  (named l.1, t.1, g.1, g.2)

/-! ## the header of a subcircuit -/

/-- the ports of a new subcircuit: its nodes as set, the next place, the names known (u_nodemap.cc:83-99, without `0`) -/
structure Fresh where
  nodes : List (List Char)
  index : ℕ
  names : List (List Char)
deriving DecidableEq

/-- one port of a header (lang_spectre.cc:114-132 with e_compon.cc:473-486; case is not ignored) -/
def newPort (max : ℕ) (f : Fresh) (v : List Char) : Fresh :=
  if f.index < max then
    let nodes := f.nodes.take f.index ++ v :: f.nodes.drop (f.index + 1)
    let names := if v = ['0'] ∨ v ∈ f.names then f.names else f.names ++ [v]
    if v = ['0'] then { f with nodes := nodes }                                     -- node 0 not allowed here
    else if names.length ≠ f.index + 1 then { f with nodes := nodes, names := names }  -- duplicate port name, skipping
    else ⟨nodes, f.index + 1, names⟩
  else f

/-- the loop of `parse_ports` for a header (lang_spectre.cc:112-134): the ports in parentheses -/
def portsNew (max : ℕ) : ℕ → Fresh → List Char → Fresh × List Char
  | 0, f, s => (f, s)
  | n + 1, f, s =>
    match s with
    | [] => (f, s)
    | c :: _ => if alnumAt c then portsNew max n (newPort max f (word s).1) (word s).2 else (f, s)

/-- the same without parentheses (lang_spectre.cc:136-161) -/
def portsNewBare (max stop : ℕ) : ℕ → Fresh → List Char → Option (Fresh × List Char)
  | 0, _, _ => none
  | n + 1, f, s => if stop < s.length then portsNewBare max stop n (newPort max f (word s).1) (word s).2 else some (f, s)

/-- the header (lang_spectre.cc:228-231): label, nodes, the text left over, which nothing looks at -/
def parseHead (ci : Bool) (n : ℕ) (full : List Char) : Option (Option (List Char) × List (List Char) × List Char) :=
  let r := match umatch ci ['s', 'u', 'b', 'c', 'k', 't', ' '] (skipbl full) with | .ok r => r | _ => skipbl full
  let l := word r
  let p := skip1b ['('] l.2
  if p.1 then
    let q := portsNew maxPorts (p.2.length + 1) ⟨[], 0, []⟩ p.2
    some (named l.1, q.1.nodes, (skip1b [')'] q.2).2)
  else (portsNewBare maxPorts (findType ci full).2.length n ⟨[], 0, []⟩ p.2).map fun q => (named l.1, q.1.nodes, q.2)

/-! ## listing -/

/-- blanks in between (lang_spectre.cc:346-350) -/
def blanks : List (List Char) → List Char
  | [] => []
  | [a] => a
  | a :: l => a ++ ' ' :: blanks l

/-- `print_ports` (lang_spectre.cc:341-356) -/
def portsText (l : List (List Char)) : List Char := [' ', '('] ++ (blanks l ++ [')'])

/-- one parameter (lang_spectre.cc:321) -/
def argText (a : List Char × List Char) : List Char := ' ' :: (a.1 ++ '=' :: a.2)

/-- an instance, as it is listed -/
structure Inst where
  label : List Char
  ports : List (List Char)
  type : List Char
  args : List (List Char × List Char)

/-- `print_instance` (lang_spectre.cc:384-391); the line ends behind it -/
def listInst (x : Inst) : List Char := x.label ++ (portsText x.ports ++ (' ' :: (x.type ++ (' ' :: x.args.flatMap argText))))

/-- `print_paramset` (lang_spectre.cc:359-365) -/
def listModel (label type : List Char) (a : List (List Char × List Char)) : List Char :=
  ['m', 'o', 'd', 'e', 'l', ' '] ++ (label ++ (' ' :: (type ++ (' ' :: ' ' :: a.flatMap argText))))

/-- the first line of `print_module` (lang_spectre.cc:372-374) -/
def listHead (label : List Char) (l : List (List Char)) : List Char := ['s', 'u', 'b', 'c', 'k', 't', ' '] ++ (label ++ portsText l)

end Gnucap.Spectre
