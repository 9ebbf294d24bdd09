import Verif.SpiceModel

/-!
# Model cards in the SPICE netlist language (C109)

Listing and reading of `.model` lines, on the scanner and the loop over `name=value` of `SpiceModel`.  Texts begin behind `.model`; choosing the kind of card (the
`level` kluge, lang_spice.cc:817-846, and the dispatcher) is left out, as are warnings and line breaks.  What a card does with a pair is not part of this: reading gives
the pairs in order.
-/
namespace Gnucap.ModelLine
open Gnucap.Scan Gnucap.Spice

/-- a card: label, type, the pairs listed or read -/
structure Card where
  label : List Char
  type : List Char
  args : List (List Char × List Char)
deriving DecidableEq

/-- a parameter of a card: its name, the text given for it, the text of the value in use otherwise (`_s`, `_v` of `PARAMETER`) -/
structure Par where
  name : List Char
  given : Option (List Char)
  soft : List Char

/-- `PARAMETER::string` (u_parameter.h:122-130) -/
def Par.string (p : Par) : List Char :=
  match p.given with
  | some v => v
  | none => ['N', 'A', '('] ++ p.soft ++ [')']

/-- the pairs listed (lang_spice.cc:741-755): a logic family prints all (d_logicmod.cc:116-134), generated models those given (mg_out_model.cc:399-475) -/
def pairs (all : Bool) : List Par → List (List Char × List Char)
  | [] => []
  | p :: l => if all || p.given.isSome then (p.name, p.string) :: pairs all l else pairs all l

/-- `print_paramset` (lang_spice.cc:685-691), behind `.model`, without the end of the line -/
def listCard (c : Card) : List Char := c.label ++ ' ' :: c.type ++ [' ', '('] ++ c.args.flatMap listArg ++ [')']

/-- what reading a line comes to: a null pointer used, the rounds allowed to the loop used up, a card -/
inductive Read where
  | null
  | rounds
  | card (c : Card)
deriving DecidableEq

/-- `parse_paramset` (lang_spice.cc:520-531) with `parse_label` (476-486), `parse_type` (382-388) and `parse_args` (390-445) for a card, which is no `COMPONENT`: the
unnamed value in quotes (403-407) goes through the null pointer `xx` -/
def readCard (ci : Bool) (n : ℕ) (s : List Char) : Read :=
  let l := word s
  let t := word l.2
  let a := match umatch ci ['p','a','r','a','m','s',':'] t.2 with
    | .ok r => r
    | _ => t.2
  let p := skip1b ['('] a
  if match1 ['\'', '{'] p.2 = true then .null
  else match argsLoop p.1 n [] p.2 with
    | none => .rounds
    | some args => .card ⟨l.1, t.1, args⟩

end Gnucap.ModelLine
