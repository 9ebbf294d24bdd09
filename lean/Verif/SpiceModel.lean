import Verif.ScanModel

/-!
# Instances in the SPICE netlist language: counting and reading ports, reading and listing a line (model)

Texts are the characters from the cursor on, as in `ScanModel`; going back (`reset`) is returning to an earlier text.  What a
device does with its label, nodes, type and parameters is not part of this: reading a line gives these four, listing takes them.
Devices that read the rest of the line themselves (`use_obsolete_callback_parse`) are left out.
-/
namespace Gnucap.Spice
open Gnucap.Scan

/-! ## The scanner -/

/-- `CS::match1` of a set of characters (ap.h:107-108) -/
def match1 (set : List Char) : List Char → Bool
  | [] => false
  | c :: _ => set.contains c

/-- `CS::skip1b` (ap_skip.cc:46-52, 71-77): whether the character was there, and the text behind it and the blanks around it -/
def skip1b (set : List Char) (s : List Char) : Bool × List Char :=
  if match1 set (skipbl s) then (true, skipbl (skipbl s).tail) else (false, skipbl s)

/-- the loop of `CS::ctos` behind an opening quote (ap_convert.cc:85-114): the string, and the text behind the closing quote.
A missing closing quote ends with the text.  `esc` says that a backslash was just passed, `n` counts the open quotes. -/
def quoted (b e : Char) (n : ℕ) (esc : Bool) : List Char → List Char × List Char
  | [] => ([], [])
  | c :: r =>
    if esc = true ∧ c = e then (c :: (quoted b e n false r).1, (quoted b e n false r).2)
    else if c = e then
      if n ≤ 1 then ([], r) else (c :: (quoted b e (n - 1) false r).1, (quoted b e (n - 1) false r).2)
    else if c = b then (c :: (quoted b e (n + 1) false r).1, (quoted b e (n + 1) false r).2)
    else if c = '\\' then quoted b e n true r
    else (c :: (quoted b e n false r).1, (quoted b e n false r).2)

/-- `CS::is_term` for a given set (ap.h:120-121), at a character -/
def stops (term : List Char) (c : Char) : Bool := isSpace c || term.contains c

/-- `CS::ctos` (ap_convert.cc:71-129), without a trap: the string, and the text that follows -/
def ctos (term : List Char) (quotes : List (Char × Char)) (s : List Char) : List Char × List Char :=
  let s := skipbl s
  match s with
  | [] => ([], skipcom [])
  | c :: r =>
    match quotes.lookup c with
    | some e => ((quoted c e 1 false r).1, skipcom (quoted c e 1 false r).2)
    | none => (s.takeWhile fun c => !stops term c, skipcom (s.dropWhile fun c => !stops term c))

/-- `cmd >> word`: `ctos` with its defaults (ap.h:126-129, 145) -/
def word (s : List Char) : List Char × List Char :=
  ctos [',', '=', '(', ')', '{', '}', ';'] [('"', '"'), ('\'', '\''), ('{', '}')] s

/-! ## Counting ports -/

/-- What the loop of `count_ports` found: the number of words (`i`) and the number of ports, with the texts behind each word
(`spots`, the first is that before the first word). -/
structure Found where
  num : ℤ
  i : ℤ
  spots : List (List Char)

/-- the number of ports when the line ends after `i` words (lang_spice.cc:145-156) -/
def atEnd (max min tail i : ℤ) : ℤ :=
  if i ≤ min then i
  else if i ≤ min + tail then min
  else if i ≤ max + tail then i - tail
  else max

/-- What the loop of `count_ports` does behind word number `i` (lang_spice.cc:142-174): the result if the loop is left, else the
count, the texts and the text for the next round. -/
def countTest (paren : Bool) (max min tail i : ℤ) (spots : List (List Char)) (s : List Char) :
    Found ⊕ (ℤ × List (List Char) × List Char) :=
  if paren = true ∧ (skip1b [')'] s).1 = true then .inl ⟨i, i, spots⟩
  else if skipbl s = [] then .inl ⟨atEnd max min tail i, i, spots⟩
  else if (skip1b ['(', '{', '}', ')'] s).1 = true then .inl ⟨if i > max + tail then max else i - tail, i, spots⟩
  else if (skip1b ['='] s).1 = true then .inl ⟨if i > max + tail + 1 then max else i - tail - 1, i, spots⟩
  else .inr (i, spots, skipbl s)

/-- One round of the loop of `count_ports` (lang_spice.cc:135-175) -/
def countRound (paren : Bool) (max min tail i : ℤ) (spots : List (List Char)) (s : List Char) :
    Found ⊕ (ℤ × List (List Char) × List Char) :=
  countTest paren max min tail (i + 1) (spots ++ [(word s).2]) (word s).2

/-- the loop, for at most `n` rounds; `none` if it has not ended by then -/
def countLoop (paren : Bool) (max min tail : ℤ) : ℕ → ℤ → List (List Char) → List Char → Option Found
  | 0, _, _, _ => none
  | n + 1, i, spots, s =>
    match countRound paren max min tail i spots s with
    | .inl f => some f
    | .inr (i, spots, s) => countLoop paren max min tail n i spots s

/-- How `count_ports` ends: with a number and the text at the cursor, with the message "what's this?", or by reading
outside the table of texts. -/
inductive Count where
  | ok (num : ℤ) (rest : List Char)
  | whatsThis
  | outside
deriving DecidableEq

/-- `count_ports` (lang_spice.cc:123-189) from text `s`, for at most `n` rounds -/
def countPorts (n : ℕ) (max min tail start : ℤ) (s : List Char) : Option Count :=
  let p := skip1b ['('] s
  match countLoop p.1 max min tail n start [p.2] p.2 with
  | none => none
  | some f =>
    if f.num < start then some .whatsThis                                  -- 176-180
    else match f.spots[(f.num - start).toNat]? with                        -- 182
      | some r => some (.ok f.num r)
      | none => some .outside

/-! ## Reading a line -/

/-- the reserved words between nodes (lang_spice.cc:243-249) -/
def keys : List (List Char) :=
  [['p','o','l','y',' '], ['p','w','l',' '], ['v','c','c','a','p',' '], ['v','c','g',' '], ['v','c','r',' ']]

/-- `umatch` says yes -/
def hits (ci : Bool) (pat s : List Char) : Bool :=
  match umatch ci pat s with
  | .ok _ => true
  | _ => false

/-- What reading the ports of an instance gives: the node names given, in order, and the text that follows; or the message that
there are too many (then reading goes on behind the name), or that a name is missing. -/
inductive Ports where
  | ok (names : List (List Char)) (rest : List Char)
  | tooMany (names : List (List Char)) (rest : List Char)
  | badName (names : List (List Char)) (rest : List Char)
deriving DecidableEq

/-- The loop of `parse_ports` (lang_spice.cc:233-284) for an instance (`all_new` false), with `max` from
`COMPONENT::set_port_by_index` (e_compon.cc:473-486); `left` bounds the rounds by what is left of `num_nodes`. -/
def portsLoop (ci keysOn paren : Bool) (max : ℕ) : ℕ → List (List Char) → List Char → Ports
  | left, acc, s =>
    if paren = true ∧ (skip1b [')'] s).1 = true then .ok acc (skip1b [')'] s).2      -- 236-238
    else
      let s := if paren = true then skipbl s else s
      match left with
      | 0 => .ok acc s                                                             -- 239-240
      | left + 1 =>
        if skipbl s = [] then .ok acc []                                           -- 241-242
        else
          let s := skipbl s
          if keysOn = true ∧ keys.any (fun k => hits ci k s) = true then .ok acc s   -- 243-251
          else
            let w := word s
            if w.2.length = s.length then .badName acc w.2                         -- 254-263
            else if max ≤ acc.length then .tooMany acc w.2
            else portsLoop ci keysOn paren max left (acc ++ [w.1]) w.2

/-- `parse_ports` for an instance from the start (lang_spice.cc:225-300), without grounding ports that are missing -/
def parsePorts (ci keysOn : Bool) (max : ℕ) (num : ℕ) (s : List Char) : Ports :=
  let p := skip1b ['('] s
  portsLoop ci keysOn p.1 max num [] p.2

/-- The loop over `name=value` of `parse_args` (lang_spice.cc:410-445), for at most `n` rounds: the pairs in order.  `here` is
the text where the round before ended. -/
def argsLoop (paren : Bool) : ℕ → List (List Char × List Char) → List Char → Option (List (List Char × List Char))
  | 0, _, _ => none
  | n + 1, acc, s =>
    if paren = true ∧ (skip1b [')'] s).1 = true then some acc
    else if skipbl s = [] then some acc
    else
      let nm := ctos ['='] [] s
      let eq := skip1b ['='] nm.2
      let v := ctos [',', '=', ';', ')'] [('"', '"'), ('\'', '\''), ('{', '}'), ('(', ')')] eq.2
      if v.2.length = s.length then some acc                                       -- stuck
      else argsLoop paren n (acc ++ [(nm.1, v.1)]) v.2

/-- The pairs given to `set_param_by_name` by `parse_args` (lang_spice.cc:390-445) for a device whose unnamed value is called
`vname` (`value_name`), for at most `n` rounds. -/
def parseArgs (ci : Bool) (n : ℕ) (vname : List Char) (s : List Char) : Option (List (List Char × List Char)) :=
  let s := match umatch ci ['p','a','r','a','m','s',':'] s with                      -- 395
    | .ok r => r
    | _ => s
  let p := skip1b ['('] s
  if match1 ['+','-','.','0','1','2','3','4','5','6','7','8','9'] p.2 = true then
    argsLoop p.1 n [(vname, (word p.2).1)] (word p.2).2
  else if match1 ['\'', '{'] p.2 = true then
    argsLoop p.1 n [(vname, '{' :: (word p.2).1 ++ ['}'])] (word p.2).2
  else argsLoop p.1 n [] p.2

/-- A class of devices whose type is on the line and whose parameters are set by name: `max_nodes`, `min_nodes`, `value_name`.
`tail_size` is 1. -/
structure Class where
  max : ℕ
  min : ℕ
  vname : List Char

/-- what a line says -/
structure Inst where
  label : List Char
  ports : List (List Char)
  type : List Char
  args : List (List Char × List Char)
deriving DecidableEq

/-- `parse_instance` (lang_spice.cc:575-612) of a device with a type on the line and a tail of one, with at most `n` rounds of
each loop.  `none` if a loop has not ended, or if there is a message instead. -/
def parseInst (ci keysOn : Bool) (n : ℕ) (c : Class) (s : List Char) : Option Inst :=
  let s := match umatch ci ['*', '>'] s with                                        -- 579
    | .ok r => r
    | _ => s
  let dot := skip1b ['.'] s                                                         -- 582-585
  let s := if dot.1 = true then (word dot.2).2 else dot.2
  let label := word s                                                               -- 587
  if label.1 = [] then none
  else match countPorts n c.max c.min 1 0 label.2 with                              -- 593-594
    | some (.ok num _) =>
      match parsePorts ci keysOn c.max num.toNat label.2 with                       -- 595-596
      | .ok ports rest =>
        if ports.length < c.min then none                                           -- 285-288
        else
          let type := word rest                                                     -- 599
          match parseArgs ci n c.vname type.2 with                                  -- 606
          | some args => some ⟨label.1, ports, type.1, args⟩
          | none => none
      | _ => none
    | _ => none

/-! ## Listing a line -/

/-- the names with blanks between (lang_spice.cc:806-814) -/
def listNames : List (List Char) → List Char
  | [] => []
  | [w] => w
  | w :: ws => w ++ ' ' :: listNames ws

/-- `print_ports` (lang_spice.cc:801-816) -/
def listPorts (ports : List (List Char)) : List Char := [' ', '(', ' '] ++ listNames ports ++ [' ', ')']

/-- one parameter (lang_spice.cc:783-788) -/
def listArg (a : List Char × List Char) : List Char := ' ' :: a.1 ++ '=' :: a.2

/-- `print_args` (lang_spice.cc:774-793): the first parameter of a component is `$mfactor`, so that no value is without a name -/
def listArgs (args : List (List Char × List Char)) : List Char := ' ' :: args.flatMap listArg

/-- `print_instance` (lang_spice.cc:710-717), without the end of line -/
def listInst (x : Inst) : List Char := x.label ++ listPorts x.ports ++ [' ', ' '] ++ x.type ++ listArgs x.args

/-! ## Parameters every component has -/

/-- the place of a name in `COMPONENT::set_hsparam` (e_compon.cc:689-716) -/
def sysSet (name : String) : Option ℕ :=
  if name = "$mfactor" then some 0 else if name = "$xposition" then some 1 else if name = "$yposition" then some 2
  else if name = "$zposition" then some 3 else if name = "$hflip" then some 4 else if name = "$vflip" then some 5
  else if name = "$bflip" then some 6 else if name = "$angle" then some 7 else none

/-- the name of a place in `COMPONENT::param_name` (e_compon.cc:781-802) -/
def sysName : ℕ → Option String
  | 0 => some "$mfactor" | 1 => some "$xposition" | 2 => some "$yposition" | 3 => some "$zposition"
  | 4 => some "$angle" | 5 => some "$hflip" | 6 => some "$vflip" | 7 => some "$sflip"
  | _ => none

/-! ## Listing a subcircuit -/

/-- a subcircuit definition: name, ports, parameters with their defaults, and the listing of its contents -/
structure Module where
  label : List Char
  ports : List (List Char)
  params : List (List Char × List Char)
  body : List Char

/-- `print_module` (lang_spice.cc:693-708) -/
def listModule (m : Module) : List Char :=
  ['.','s','u','b','c','k','t',' '] ++ m.label ++ listPorts m.ports ++ ['\n'] ++ m.body ++ ['.','e','n','d','s',' '] ++ m.label ++ ['\n']

end Gnucap.Spice
