import Verif.NameModel
import Verif.NumModel
import Verif.SpiceModel

/-!
# The probe commands: `print`, `plot`, `store` and `alarm` (model)

`do_probe` (c_prbcmd.cc:37-120), `PROBELIST::add_list` and `remove_list` (u_prblst.cc:75-98, 124-193), `add_all_nodes` (200-217),
`PROBE::label` (u_probe.cc:92-99) and `CS::check` (ap_error.cc:37-48).  The search by name is `addBranches` of `NameModel`.
The text is that behind the name of the command, without blanks in front.  Messages and listings are left out.
-/
namespace Gnucap.PrbCmd
open Gnucap.Scan Gnucap.Spice Gnucap.Names Gnucap.Wmatch

/-- `SIM_MODE` (mode.h:37-44): the index of a list of probes -/
inductive Mode where
  | none | ac | op | dc | tran | fourier
  deriving DecidableEq

/-- `PROBE` (u_probe.h:32-34): `_what`, `_brh` (`none`: null) and the limits -/
structure Probe where
  what : Name
  on : Option Obj
  lo : ℚ
  hi : ℚ
  deriving DecidableEq

/-- What the commands see of the circuit and the options: `OPT::case_insensitive`, `OPT::units`, the names in the node map (in
the order of the map) and the cards -/
structure Ckt where
  ci : Bool
  units : Num.Units
  nodes : List Name
  parts : List Part

/-- `long_label` of what a probe is on: of a node it is its own name (e_base.cc:63-71), of a card the names on the way to it
(e_card.cc:62-69) -/
def objLabel (k : Ckt) : Obj → Option Name
  | .node _ n => some n
  | .part p => longLabel k.parts p

/-- `PROBE::label` (u_probe.cc:92-99) -/
def label (k : Ckt) (p : Probe) : Option Name :=
  match p.on with
  | none => some (p.what ++ ['(', '0', ')'])
  | some o => (objLabel k o).map fun l => p.what ++ '(' :: (l ++ [')'])

/-- `operator==` of a probe and a string (u_prblst.cc:65-68) -/
def named (k : Ckt) (par : Name) (p : Probe) : Bool :=
  match label k p with
  | none => false
  | some l => wmatch k.ci l par

/-- `TOKENTERM` (constant.h:108) -/
def tokenTerm : List Char := [',', '=', '(', ')', '[', ']']

/-- `cmd.ctos(TOKENTERM)`, with the default quotes (ap.h:126-129) -/
def token (s : List Char) : List Char × List Char := ctos tokenTerm [('"', '"'), ('\'', '\''), ('{', '}')] s

/-- `cmd.is_alnum() || cmd.match1("*?")` (u_prblst.cc:150, 160) -/
def startsName : List Char → Bool
  | [] => false
  | c :: _ => Num.isAlpha c || (48 ≤ c.toNat % 128 && c.toNat % 128 ≤ 57) || c == '*' || c == '?'

/-- `push_new_probe` for everything found (u_prblst.cc:195-198; u_probe.cc:30-41) -/
def put (what : Name) (l : List Obj) : List Probe := l.map fun o => ⟨what, some o, 0, 0⟩

/-- `add_all_nodes` (u_prblst.cc:200-217) -/
def allNodes (k : Ckt) (what : Name) : List Probe :=
  put what ((k.nodes.filter fun n => decide (n ≠ ['0']) && !n.contains '.').map fun n => .node [] n)

/-- `add_branches` called from the top (u_prblst.cc:153, 165) -/
def found (k : Ckt) (name : Name) : List Obj := addBranches k.ci name k.nodes k.parts []

/-- The loop over the names of a list (u_prblst.cc:158-171): the probes, and the text behind.  A name that is not found is put
back.  `n` bounds the number of names. -/
def moreNames (k : Ckt) (what : Name) : ℕ → List Char → List Probe × List Char
  | 0, s => ([], s)
  | n + 1, s =>
    if startsName s then
      let w := word s
      if found k w.1 = [] then ([], s)
      else
        let r := moreNames k what n w.2
        (put what (found k w.1) ++ r.1, r.2)
    else ([], s)

/-- What stands in the parentheses (u_prblst.cc:144-174) -/
def inner (k : Ckt) (what : Name) (s : List Char) : List Probe × List Char :=
  match umatch k.ci ['n', 'o', 'd', 'e', 's', ' '] s with
  | .ok r => (allNodes k what, r)
  | _ =>
    match umatch k.ci ['0'] s with
    | .ok r => ([⟨what, none, 0, 0⟩], r)
    | _ =>
      if startsName s then
        let w := word s
        let r := moreNames k what w.2.length w.2
        (put what (found k w.1) ++ r.1, r.2)
      else ([], s)

/-- `CS::check` (ap_error.cc:37-48); `none`: the cursor is put behind the end of the text, and what is there is read next -/
def check (ci : Bool) (s : List Char) : Option (List Char) :=
  match skipbl s with
  | [] => some []
  | c :: r =>
    if c = '/' then
      match umatch ci ['/', '/'] (c :: r) with
      | .ok [] => none
      | .ok (_ :: t) => some t
      | _ => some r
    else if c = ';' ∨ c = '\'' then some r
    else some (c :: r)

/-- A number of the range (u_prblst.cc:182-183): no number counts as 0; `none`: undefined behaviour in `ctof` -/
def number (u : Num.Units) (s : List Char) : Option (ℚ × List Char) :=
  match Num.ctof u s with
  | .num v r => some (v, r)
  | .none r => some (0, r)
  | .ub => none

/-- `PROBELIST::add_list` (u_prblst.cc:130-193): what is added at the end of the list, and the text behind -/
def addList (k : Ckt) (s : List Char) : Option (List Probe × List Char) :=
  let w := token s
  let d := inner k w.1 (skip1b ['('] w.2).2
  match skip1b ['('] (skip1b [')'] d.2).2 with
  | (false, r) => some (d.1, r)
  | (true, r) =>
    match number k.units r with
    | none => none
    | some lo =>
      match number k.units lo.2 with
      | none => none
      | some hi =>
        let l := d.1.map fun p => { p with lo := lo.1, hi := hi.1 }
        match skip1b [')'] hi.2 with
        | (true, t) => some (l, t)
        | (false, t) => (check k.ci t).map fun t => (l, t)

/-- `PROBELIST::remove_list` (u_prblst.cc:78-98): what remains of the list, and the text behind -/
def removeList (k : Ckt) (s : List Char) (l : List Probe) : List Probe × List Char :=
  let w := token s
  let d := token (skip1b ['('] w.2).2
  (l.filter fun p => !named k (w.1 ++ '(' :: (d.1 ++ [')'])) p, (skip1b [')'] d.2).2)

/-- `action` -/
inductive Act where
  | add | delete | new
  deriving DecidableEq

/-- A sign in the text sets the action (c_prbcmd.cc:51-59, 90-97, 104-111) -/
def sign (a : Act) (s : List Char) : Act × List Char :=
  match s with
  | '-' :: r => (.delete, r)
  | '+' :: r => (.add, r)
  | _ => (a, s)

/-- One round of the loop (c_prbcmd.cc:104-116), at a text without blanks in front -/
def round (k : Ckt) (a : Act) (s : List Char) (l : List Probe) : Option (Act × List Char × List Probe) :=
  let a' := sign a s
  if a'.1 = .delete then
    some (a'.1, (removeList k a'.2 l).2, (removeList k a'.2 l).1)
  else (addList k a'.2).map fun r => (a'.1, r.2, l ++ r.1)

/-- How a command ends: with a list, or with undefined behaviour -/
inductive End (α : Type) where
  | list (l : α)
  | ub

/-- `while (cmd.more())` (c_prbcmd.cc:103-117); `none`: not done after `n` rounds -/
def loop (k : Ckt) : ℕ → Act → List Char → List Probe → Option (End (List Probe))
  | 0, _, s, l => if skipbl s = [] then some (.list l) else none
  | n + 1, a, s, l =>
    if skipbl s = [] then some (.list l)
    else
      match round k a (skipbl s) l with
      | none => some .ub
      | some r => loop k n r.1 r.2.1 r.2.2

/-- The kinds of analysis (c_prbcmd.cc:61-67), as patterns of `Set` (ap.h:194-202) -/
def kinds : List (List Char × Mode) :=
  [(['t', 'r', '{', 'a', 'n', 's', 'i', 'e', 'n', 't', '}', ' '], .tran), (['a', 'c', ' '], .ac), (['d', 'c', ' '], .dc),
   (['o', 'p', ' '], .op), (['f', 'o', '{', 'u', 'r', 'i', 'e', 'r', '}', ' '], .fourier)]

/-- `ONE_OF` (c_prbcmd.cc:61-67): the kind, and the text behind -/
def kind (ci : Bool) (s : List Char) : List (List Char × Mode) → Mode × List Char
  | [] => (.none, s)
  | p :: t =>
    match umatch ci p.1 s with
    | .ok r => (p.2, r)
    | _ => kind ci s t

/-- The pattern `"clear "` -/
def clearPat : List Char := ['c', 'l', 'e', 'a', 'r', ' ']

/-- How the command ends: with new lists, refused by an exception, or with undefined behaviour -/
inductive Out where
  | lists (l : Mode → List Probe)
  | refused
  | ub

/-- `do_probe` (c_prbcmd.cc:37-120); `none`: not done after `n` rounds of the loop -/
def doProbe (k : Ckt) (n : ℕ) (s : List Char) (ls : Mode → List Probe) : Option Out :=
  let a := sign .new s
  let m := kind k.ci a.2 kinds
  let t := skipbl m.2
  if m.1 = .none then
    if t = [] then some (.lists ls)
    else
      match umatch k.ci clearPat t with
      | .ok _ => some (.lists fun _ => [])
      | _ => some .refused
  else
    if t = [] then some (.lists ls)
    else
      match umatch k.ci clearPat t with
      | .ok _ => some (.lists (Function.update ls m.1 []))
      | _ =>
        let b := sign a.1 t
        (loop k n (if b.1 = .new then .add else b.1) b.2 (if b.1 = .new then [] else ls m.1)).map fun
          | .list l => .lists (Function.update ls m.1 l)
          | .ub => .ub

end Gnucap.PrbCmd
