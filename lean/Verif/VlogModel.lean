import Verif.SpiceModel
import Verif.NumModel

/-!
# Reading and listing in Verilog (C77)

Models lang_verilog.cc: attributes, identifiers, instances, the header of a module, paramsets, and their listing.  Text as in
`ScanModel`; what is set in the device is the result, in order.  `none`: the cursor goes behind the end of the text, where `peek`
reads next (ap.h:82, 148-149).  `get_line`, which puts the next line in the scanner, and what a device does with what it is given (`SubcktModel`,
`ElemModel`) are not part of this.
-/
namespace Gnucap.Vlog
open Gnucap.Scan Gnucap.Spice Gnucap.Num

/-- one parameter or port: its attributes, name and value (by order: no name) -/
structure Conn where
  attr : List Char
  name : List Char
  value : List Char
deriving DecidableEq

/-! ## attributes -/

/-- the inner loop of `parse_attributes` (lang_verilog.cc:124-126, ap_convert.cc:37-45) -/
def attrBody (ci : Bool) : List Char → List Char × List Char
  | [] => ([], [])
  | c :: r =>
    match umatch ci ['*', ')'] (c :: r) with
    | .ok t => ([], t)
    | _ => (c :: (attrBody ci r).1, (attrBody ci r).2)

/-- the outer loop (lang_verilog.cc:122-128); every round takes two characters at least, so the first argument does not end it -/
def attrLoop (ci : Bool) : ℕ → List Char → List Char → List Char × List Char
  | 0, _, s => ([], s)
  | n + 1, comma, s =>
    match umatch ci ['(', '*'] s with
    | .ok r =>
      let a := attrBody ci r
      let t := attrLoop ci n [',', ' '] a.2
      (comma ++ a.1 ++ t.1, t.2)
    | _ => ([], s)

/-- `parse_attributes` (lang_verilog.cc:118-130) -/
def attrs (ci : Bool) (s : List Char) : List Char × List Char := attrLoop ci (s.length + 1) [] s

/-- `skip_attributes` (lang_verilog.cc:111-116); if there is no `*` the cursor stays (ap_skip.cc:135-147) -/
def skipAttrs (ci : Bool) : ℕ → List Char → List Char
  | 0, s => s
  | n + 1, s =>
    match umatch ci ['(', '*'] s with
    | .ok r =>
      if '*' ∈ r then
        match umatch ci ['*', ')'] (r.dropWhile (· ≠ '*')) with
        | .ok t => skipAttrs ci n t
        | _ => skipAttrs ci n (r.dropWhile (· ≠ '*'))
      else skipAttrs ci n r
    | _ => s

/-- `find_type_in_string` (lang_verilog.cc:690-703); `none`: a comment -/
def findType (ci : Bool) (s : List Char) : Option (List Char) :=
  let s := skipAttrs ci (s.length + 1) s
  match umatch ci ['/', '/'] s with
  | .ok _ => none
  | _ => some (word s).1

/-! ## identifiers -/

/-- `isalnum` in the C locale -/
def isAlnum (c : Char) : Bool :=
  (48 ≤ c.toNat && c.toNat ≤ 57) || (65 ≤ c.toNat && c.toNat ≤ 90) || (97 ≤ c.toNat && c.toNat ≤ 122)

/-- `CS::is_alnum` (ap.h:119): it looks at the lower seven bits -/
def alnumAt (c : Char) : Bool := isAlnum (Char.ofNat (c.toNat % 128))

/-- ends an escaped identifier (lang_verilog.cc:263, ap_convert.cc:131-138) -/
def isGap (c : Char) : Bool := c = ' ' || c = '\t' || c = '\x0c'

/-- `mangle` (lang_verilog.cc:233-244) -/
def mangle (name : List Char) : List Char :=
  match name with
  | [] => []
  | c :: r => if isDigit c then '\\' :: c :: r ++ [' '] else if c = '\\' then c :: r ++ [' '] else c :: r

/-- `get_identifier` (lang_verilog.cc:252-291), without its warning -/
def getId (term : List Char) (s : List Char) : Option (List Char × List Char) :=
  let s := skipbl s
  if (skip1b ['\\'] s).1 then
    let r := (skip1b ['\\'] s).2
    let id := r.takeWhile fun c => !isGap c
    match r.dropWhile fun c => !isGap c with
    | [] => none
    | _ :: t => some (if id.all isAlnum then id else '\\' :: id, t)
  else some (ctos term [] s)

/-! ## parameters of an instance -/

/-- by name (lang_verilog.cc:181-196); every round takes a point, so the first argument does not end it -/
def paramsNamed (ci : Bool) : ℕ → List Char → List Char → List Conn × List Char
  | 0, _, s => ([], s)
  | n + 1, attr, s =>
    if (skip1b ['.'] s).1 then
      let nm := ctos ['('] [] (skip1b ['.'] s).2
      let v := ctos [',', ')'] [('(', ')')] nm.2
      let a := attrs ci (skip1b [','] v.2).2
      let t := paramsNamed ci n a.1 a.2
      (⟨attr, nm.1, v.1⟩ :: t.1, t.2)
    else ([], (skip1b ['.'] s).2)

/-- by order (lang_verilog.cc:199-212) -/
def paramsOrdered (ci : Bool) : ℕ → List Char → List Char → List Conn × List Char
  | 0, _, s => ([], s)
  | n + 1, attr, s =>
    match s with
    | [] => ([], s)
    | c :: _ =>
      if alnumAt c || c = '+' || c = '-' || c = '.' then
        let v := ctos [',', ')'] [] s
        let a := attrs ci v.2
        let t := paramsOrdered ci n a.1 a.2
        (⟨attr, [], v.1⟩ :: t.1, t.2)
      else ([], s)

/-- how a list is given -/
inductive Given where
  | named (l : List Conn)
  | ordered (l : List Conn)
  | missing
deriving DecidableEq

/-- `parse_args_instance` (lang_verilog.cc:171-218) -/
def params (ci : Bool) (s : List Char) : Given × List Char :=
  match umatch ci ['#', '('] s with
  | .ok r =>
    let a := attrs ci r
    if match1 ['.'] a.2 then
      let l := paramsNamed ci (a.2.length + 1) a.1 a.2
      (.named l.1, (skip1b [')'] l.2).2)
    else
      let l := paramsOrdered ci (a.2.length + 1) a.1 a.2
      (.ordered l.1, (skip1b [')'] l.2).2)
  | _ => (.missing, s)

/-! ## ports -/

/-- by name (lang_verilog.cc:303-324) -/
def portsNamed (ci : Bool) : ℕ → List Char → List Char → Option (List Conn × List Char)
  | 0, _, s => some ([], s)
  | n + 1, attr, s =>
    if (skip1b ['.'] s).1 then
      match getId ['('] (skip1b ['.'] s).2 with
      | none => none
      | some nm =>
        match getId [')'] (skip1b ['('] nm.2).2 with
        | none => none
        | some v =>
          let r := if (skip1b ['('] nm.2).1 then (skip1b [')'] v.2).2 else v.2
          let a := attrs ci (skip1b [','] r).2
          (portsNamed ci n a.1 a.2).map fun t => (⟨attr, nm.1, v.1⟩ :: t.1, t.2)
    else some ([], (skip1b ['.'] s).2)

/-- by order (lang_verilog.cc:338-363), without what is refused in a header (344-354) -/
def portsOrdered (ci : Bool) : ℕ → List Char → List Char → Option (List Conn × List Char)
  | 0, _, s => some ([], s)
  | n + 1, attr, s =>
    match s with
    | [] => some ([], s)
    | c :: _ =>
      if alnumAt c || c = '\\' then
        match getId [',', ')'] s with
        | none => none
        | some v =>
          let a := attrs ci (skip1b [','] v.2).2
          (portsOrdered ci n a.1 a.2).map fun t => (⟨attr, [], v.1⟩ :: t.1, t.2)
      else some ([], s)

/-- `parse_ports` (lang_verilog.cc:293-393), without the grounding of ports not given -/
def ports (ci : Bool) (s : List Char) : Option (Given × List Char) :=
  if (skip1b ['('] s).1 then
    let a := attrs ci (skip1b ['('] s).2
    if match1 ['.'] a.2 then
      (portsNamed ci (a.2.length + 1) a.1 a.2).map fun l => (.named l.1, (skip1b [')'] l.2).2)
    else
      (portsOrdered ci (a.2.length + 1) a.1 a.2).map fun l => (.ordered l.1, (skip1b [')'] l.2).2)
  else some (.missing, (skip1b ['('] s).2)

/-! ## instances -/

/-- what a line gives: `label` is `none` if one is made up (lang_verilog.cc:220-230); `rest` is what is left over, with a warning -/
structure Read where
  attr : List Char
  type : List Char
  params : Given
  label : Option (List Char)
  ports : Given
  rest : List Char
deriving DecidableEq

/-- `parse_instance` (lang_verilog.cc:676-688) -/
def parseInst (ci : Bool) (s : List Char) : Option Read :=
  let a := attrs ci s
  let t := word a.2
  let p := params ci t.2
  let l := word p.2
  (ports ci l.2).map fun q => ⟨a.1, t.1, p.1, if l.1 = [] then none else some l.1, q.1, (skip1b [';'] q.2).2⟩

/-- an instance, as it is listed -/
structure Inst where
  attr : List Char
  type : List Char
  params : List Conn
  label : List Char
  ports : List Conn

/-- `print_attributes` (lang_verilog.cc:712-723) -/
def attrText (a : List Char) : List Char := if a = [] then [] else ['(', '*', ' '] ++ (a ++ [' ', '*', ')', ' '])

/-- commas in between -/
def commas : List (List Char) → List Char
  | [] => []
  | [a] => a
  | a :: l => a ++ ',' :: commas l

/-- `print_args` (lang_verilog.cc:753-755) -/
def paramText (c : Conn) : List Char := attrText c.attr ++ ('.' :: (c.name ++ '(' :: (c.value ++ [')'])))

/-- `print_ports_long` (lang_verilog.cc:784-786) -/
def portText (c : Conn) : List Char := attrText c.attr ++ ('.' :: (mangle c.name ++ '(' :: (mangle c.value ++ [')'])))

/-- `print_instance` (lang_verilog.cc:852-860) with `print_type`, `print_args`, `print_label`, `print_ports_long` (741-796, no current
ports, no `use_obsolete_callback_print`); the line ends behind it -/
def listInst (x : Inst) : List Char :=
  attrText x.attr ++ (x.type ++ ([' ', '#', '('] ++ (commas (x.params.map paramText) ++ ([')', ' '] ++ (x.label ++ ([' ', '('] ++
    (commas (x.ports.map portText) ++ [')', ';'])))))))

/-! ## modules -/

/-- `PORTS_PER_SUBCKT` (d_subckt.cc:44) -/
def maxPorts : ℕ := 100

/-- `DEV_SUBCKT_PROTO::set_port_by_name` (d_subckt.cc:148-154) for the ports of a header, one by one: each goes to the next place, in
`_port_name` (d_subckt.cc:129) before anything is checked; `none`: a write outside of that array. -/
def protoPorts : List (List Char × List Char) → List Conn → Option (List (List Char × List Char))
  | done, [] => some done
  | done, c :: l => if done.length < maxPorts then protoPorts (done ++ [(c.name, c.value)]) l else none

/-- what a header gives -/
structure HeadRead where
  attr : List Char
  label : Option (List Char)
  ports : Given
  rest : List Char
deriving DecidableEq

/-- the header of a module (lang_verilog.cc:652-657) -/
def parseHeader (ci : Bool) (s : List Char) : Option HeadRead :=
  let a := attrs ci s
  let r := match umatch ci ['m', 'o', 'd', 'u', 'l', 'e', ' ', '|', 'm', 'a', 'c', 'r', 'o', 'm', 'o', 'd', 'u', 'l', 'e', ' '] a.2 with
    | .ok r => r
    | _ => a.2
  let l := word r
  (ports ci l.2).map fun q => ⟨a.1, if l.1 = [] then none else some l.1, q.1, (skip1b [';'] q.2).2⟩

/-- the first line `print_module` lists (lang_verilog.cc:840-843) -/
def listHeader (attr label : List Char) (l : List Conn) : List Char :=
  attrText attr ++ (['m', 'o', 'd', 'u', 'l', 'e', ' '] ++ (label ++ ([' ', '('] ++ (commas (l.map portText) ++ [')', ';']))))

/-! ## paramsets -/

/-- `parse_args_paramset` (lang_verilog.cc:155-169): what is set, and the text that follows -/
def setArgs : ℕ → List Char → List (List Char × List Char) × List Char
  | 0, s => ([], s)
  | n + 1, s =>
    if (skip1b ['.'] s).1 then
      let nm := word (skip1b ['.'] s).2
      let v := word (skip1b ['='] nm.2).2
      let t := setArgs n (skip1b [';'] v.2).2
      ((nm.1, v.1) :: t.1, t.2)
    else ([], (skip1b ['.'] s).2)

/-- how a paramset ends -/
inductive SetEnd where
  | done                                  -- `endparamset`
  | whatsThis (rest : List Char)          -- something else, the rest is not read as part of it
  | noMore                                -- the file ends
deriving DecidableEq

/-- the loop of `parse_paramset` (lang_verilog.cc:438-448) over the lines that follow -/
def setLoop (ci : Bool) (s : List Char) (lines : List (List Char)) : List (List Char × List Char) × SetEnd :=
  let a := setArgs (s.length + 1) s
  match umatch ci ['e', 'n', 'd', 'p', 'a', 'r', 'a', 'm', 's', 'e', 't', ' '] a.2 with
  | .ok _ => (a.1, .done)
  | _ =>
    if skipbl a.2 = [] then
      match lines with
      | [] => (a.1, .noMore)
      | l :: ls =>
        let t := setLoop ci l ls
        (a.1 ++ t.1, t.2)
    else (a.1, .whatsThis (skipbl a.2))

/-- what a paramset gives -/
structure SetRead where
  attr : List Char
  label : Option (List Char)
  type : List Char
  args : List (List Char × List Char)
  fin : SetEnd
deriving DecidableEq

/-- `parse_paramset` (lang_verilog.cc:428-450) from its first line and those that follow -/
def parseSet (ci : Bool) (s : List Char) (lines : List (List Char)) : SetRead :=
  let a := attrs ci s
  let r := match umatch ci ['p', 'a', 'r', 'a', 'm', 's', 'e', 't', ' '] a.2 with | .ok r => r | _ => a.2
  let l := word r
  let t := word l.2
  let g := setLoop ci (skip1b [';'] t.2).2 lines
  ⟨a.1, if l.1 = [] then none else some l.1, t.1, g.1, g.2⟩

/-- one argument (lang_verilog.cc:733) -/
def argText (a : List Char × List Char) : List Char := [' ', '.'] ++ (a.1 ++ (['='] ++ (a.2 ++ [';'])))

/-- `print_paramset` (lang_verilog.cc:823-833): its lines -/
def listSet (attr label type : List Char) (args : List (List Char × List Char)) : List (List Char) :=
  [attrText attr ++ (['p', 'a', 'r', 'a', 'm', 's', 'e', 't', ' '] ++ (label ++ ([' '] ++ (type ++ [';'])))),
   args.flatMap argText,
   ['e', 'n', 'd', 'p', 'a', 'r', 'a', 'm', 's', 'e', 't']]

end Gnucap.Vlog
