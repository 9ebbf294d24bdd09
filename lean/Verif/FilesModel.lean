import Verif.CmdModel
import Verif.OptModel

/-!
# What the lines of a file do (model of lang_spice.cc and c_file.cc)

A netlist or script in the Spice language, line by line: which line ends a body, which is an element, which is a command, and the commands
that read lines themselves: `.subckt`, `.lib`, `.include`, `merge`, `get`, `<`, `build`, and `include` of c_file.cc.  Elements and the other
commands are given from outside (`act`), with any effect and any outcome; so are the files, what cards there are and the names of devices.

A line is a line as `CS::get_line` gives it (continuations joined: LinesModel).  An exception is an outcome: `eof` is
`Exception_End_Of_Input`, `nofile` is `Exception_File_Open`, `failed` any other.  Loops and nested files are bounded by fuel; `none` is running out of it.
-/
namespace Gnucap.Files
open Gnucap.Scan Gnucap.Spice Gnucap.Dispatch Gnucap.Cmd

abbrev Line := List Char

/-- where cards are kept: the headers of the subcircuits around, innermost first; `[]` is `CARD_LIST::card_list` -/
abbrev Scope := List Line

/-- `RUN_MODE` (md.h:187-195) -/
inductive Mode where
  | preset | interactive | script | batch
  deriving DecidableEq, Repr

/-- what is done with a line, or around one; `owner` is `none` for a null pointer -/
inductive Event where
  /-- an instance or comment is made, with its owner, and put into a list (u_lang.cc:102-124) -/
  | elem (owner : Option Scope) (list : Scope) (l : Line)
  /-- a command (lang_spice.cc:496-519), not one of those below -/
  | cmd (scope : Scope) (l : Line)
  /-- the header of a subcircuit is read (lang_spice.cc:540-552) -/
  | opens (l : Line)
  /-- the subcircuit is put into a list (lang_spice.cc:872) -/
  | closes (scope : Scope) (l : Line)
  /-- `command("clear", Scope)` (lang_spice.cc:996, 1014) -/
  | clear (scope : Scope)
  /-- the first line, kept as title (lang_spice.cc:909-916) -/
  | title (l : Line)
  /-- a warning: what is wrong with the rest of the line, or that a file cannot be opened (lang_spice.cc:904, c_file.cc:82) -/
  | warn (l : Line)
  deriving DecidableEq, Repr

/-- how it ended -/
inductive Stat where
  | ok | eof | nofile | failed | quit | ub
  deriving DecidableEq, Repr

/-- the run mode, the directory, everything else -/
structure State (σ : Type) where
  mode : Mode
  cwd : List Char
  user : σ

/-- what is given from outside -/
structure Cfg (σ : Type) where
  ci : Bool
  /-- `Scope->find_looking_out(Name)`, `card_list.find_(Name)` (u_lang.cc:48-61): there is a card of that name -/
  card : Option Scope → List Char → σ → Bool
  /-- a name in `device_dispatcher` or `model_dispatcher` (u_lang.cc:67-70) -/
  dev : List Char → Bool
  /-- the lines of a file, looked for from a directory; `none` if it cannot be opened -/
  file : List Char → List Char → σ → Option (List Line)
  /-- what an element or command does: by the mode and directory, to all but the mode -/
  act : Mode → Event → List Char × σ → Stat × (List Char × σ)
  /-- `findfile` with `GNUCAP_INCLUDEPATH` (c_file.cc:55-61): the name to open -/
  find : List Char → List Char → σ → List Char
  dirname : List Char → List Char
  basename : List Char → List Char
  /-- the directory after `chdir` -/
  enter : List Char → List Char → List Char

/-! ## what a line is -/

/-- `CKT_PROMPT` (md.h:77) -/
def cktPrompt : List Char := ['>']

/-- `while (cmd.umatch(CKT_PROMPT))` (lang_spice.cc:113-115) -/
def cktPrompts (ci : Bool) : ℕ → List Char → List Char
  | 0, s => s
  | n + 1, s => match umatch ci cktPrompt s with
    | .ok r => cktPrompts ci n r
    | _ => s

/-- `cmd.umatch(ANTI_COMMENT)` -/
def anti (ci : Bool) (s : List Char) : List Char := match umatch ci antiComment s with
  | .ok r => r
  | _ => s

/-- `skip_pre_stuff` (lang_spice.cc:110-117) -/
def pre (ci : Bool) (s : List Char) : List Char :=
  let s := skipbl s
  anti ci (cktPrompts ci s.length s)

/-- what a line is -/
inductive Kind where
  | blank
  | elem
  | cmd
  | sub
  | lib (rest : List Char)
  | incl (rest : List Char)
  | merge (rest : List Char)
  | run (rest : List Char)
  | get (rest : List Char)
  | build
  | file (relative : Bool) (rest : List Char)
  | ub
  deriving DecidableEq, Repr

/-- the plugin of that number has that name -/
def named (k : ℕ) (name : List Char) : Bool := ((installed[k]?).getD []).contains name

/-- the commands that read lines, by name (lang_spice.cc:875, 961, 972, 984, 1003, 1017, 1036, c_file.cc:91-93) -/
def nSubckt : List Char := ['.', 's', 'u', 'b', 'c', 'k', 't']
def nLib : List Char := ['.', 'l', 'i', 'b']
def nIncl : List Char := ['.', 'i', 'n', 'c', 'l', 'u', 'd', 'e']
def nMerge : List Char := ['.', 'm', 'e', 'r', 'g', 'e']
def nRun : List Char := ['<']
def nGet : List Char := ['.', 'g', 'e', 't']
def nBuild : List Char := ['.', 'b', 'u', 'i', 'l', 'd']
def nFile : List Char := ['i', 'n', 'c', 'l', 'u', 'd', 'e']
def nFileRel : List Char := ['`', 'i', 'n', 'c', 'l', 'u', 'd', 'e']

/-- the command of `CMD::cmdproc` (c__cmd.cc:33-106) -/
def kindCmd (ci : Bool) (s : List Char) : Kind :=
  match proc ci booted s with
  | .ub => .ub
  | .runs k rest =>
    if named k nSubckt then .sub
    else if named k nLib then .lib rest
    else if named k nIncl then .incl rest
    else if named k nMerge then .merge rest
    else if named k nRun then .run rest
    else if named k nGet then .get rest
    else if named k nBuild then .build
    else if named k nFile then .file false rest
    else if named k nFileRel then .file true rest
    else .cmd
  | _ => .cmd

/-- `command_dispatcher[s]` -/
def known (ci : Bool) (w : List Char) : Bool := (lookup ci w booted).2.isSome

/-- the short names of u_lang.cc:74-95, if nothing else has the name -/
def knownShort (ci : Bool) (w : List Char) : Bool :=
  match shorts.find? (fun e => hits ci e.1 w) with
  | some e => known ci e.2
  | none => false

/-- `parse_command` (lang_spice.cc:502-515): if the word is not a command, the first character is passed over -/
def parseCommand (ci : Bool) (s : List Char) : Kind :=
  if known ci (word s).1 then kindCmd ci s else kindCmd ci s.tail

/-- the type by which `find_type_in_string` (lang_spice.cc:614-661) names a line: with a dot the word, without the dot if there is no
such command; else one letter (the names of gates and the like that `G` and `U` may begin are left out: no commands) -/
def typeOf (ci : Bool) (s : List Char) : List Char :=
  match anti ci s with
  | '.' :: r => if known ci (word ('.' :: r)).1 then (word ('.' :: r)).1 else (word ('.' :: r)).1.tail
  | c :: _ => [if ci then c.toUpper else c]
  | [] => []

/-- `find_proto` (u_lang.cc:45-100) gives a `DEV_DOT`: no card has the name, and a command has it, or no device has it and it is short for
a command -/
def isDot (ci : Bool) (dev found : List Char → Bool) (w : List Char) : Bool :=
  !found w && (known ci w || (!dev w && knownShort ci w))

/-- `new__instance` (u_lang.cc:102-124): an instance, or a command.  `s` is the text at the cursor, `l` the whole line. -/
def kind (ci : Bool) (dev found : List Char → Bool) (s l : List Char) : Kind :=
  if skipbl s = [] then .blank
  else if isDot ci dev found (typeOf ci (skipbl s)) then parseCommand ci (pre ci l)
  else .elem

/-! ## the rest of a line that names a file -/

/-- the words of `getmerge` (lang_spice.cc:890-897) -/
def mergeFlags : List (List Char) := [['e', 'c', 'h', 'o'], ['l', 'i', 's', 't'], ['q', 'u', 'i', 'e', 't']]
def wSection : List Char := ['s', 'e', 'c', 't', 'i', 'o', 'n']

/-- one round of the options: the section, and the text left; `none` is undefined (ap_get.cc:30-45, ap.h:172-180) -/
def mergeTry (ci : Bool) (sec s : List Char) : List (List Char) → Option (List Char × List Char)
  | [] => match umatch ci (wSection ++ [' ', '{', '=', '}']) s with
    | .ok r => some (word r)
    | .fail => some (sec, s)
    | .ub => none
  | key :: l => match umatch ci (key ++ [' ']) s with
    | .ok r => if (skip1b ['='] r).1 then some (sec, (Opt.ctob ci (skip1b ['='] r).2).2) else some (sec, (skip1b ['='] r).2)
    | .ub => none
    | .fail => match umatch ci (['n', 'o'] ++ key) s with
      | .ok r => some (sec, r)
      | .ub => none
      | .fail => mergeTry ci sec s l

/-- the loop (lang_spice.cc:889-897); `n` bounds the rounds -/
def mergeLoop (ci : Bool) : ℕ → List Char → ℕ → List Char → Option (List Char × List Char)
  | 0, _, _, _ => none
  | n + 1, sec, here, s =>
    match mergeTry ci sec s mergeFlags with
    | none => none
    | some (sec', r) =>
      if skipbl r = [] then some (sec', [])
      else if (skipbl r).length < here then mergeLoop ci n sec' (skipbl r).length (skipbl r)
      else some (sec', skipbl r)

/-- the file, the section and the rest (lang_spice.cc:882-903) -/
def mergeArgs (ci : Bool) (s : List Char) : Option (List Char × List Char × List Char) :=
  let f := word s
  match mergeLoop ci (f.2.length + 1) [] f.2.length f.2 with
  | none => none
  | some (sec, []) => some (f.1, sec, [])
  | some (_, c :: r) => some (f.1, (word (c :: r)).1, (word (c :: r)).2)

/-! ## reading -/

/-- the keys (lang_spice.cc:551, 920, 925-927, 952, 1032) -/
def keyEnds : List Char := ['.', 'e', 'n', 'd', 's', ' ', '|', '.', 'e', 'o', 'm', ' ']
def keyEnd : List Char := ['.', 'e', 'n', 'd', ' ']
def keyDot : List Char := ['.', ' ']
def keyEndl (sec : List Char) : List Char := ['.', 'e', 'n', 'd', 'l', ' ', '{'] ++ sec ++ ['}']
def keyLib (sec : List Char) : List Char := ['.', 'l', 'i', 'b', ' '] ++ sec ++ [' ']

/-- what is left to do -/
inductive Task where
  /-- `parse_module_body` (lang_spice.cc:555-573) -/
  | body (owner : Option Scope) (list : Scope) (key : List Char) (blank : Bool) (ls : List Line)
  /-- `new__instance`, one line; the lines behind it may be read -/
  | line (owner : Option Scope) (list : Scope) (s : List Char) (l : Line) (ls : List Line)
  /-- `getmerge` (lang_spice.cc:880-938) -/
  | merge (scope : Scope) (header : Bool) (rest : List Char)
  /-- the sections (lang_spice.cc:923-935) -/
  | sections (scope : Scope) (sec : List Char) (ls : List Line)
  /-- the loop of `include` (c_file.cc:73-80) with `LANG_SPICE::parse_top_item` (lang_spice.cc:663-677) -/
  | top (list : Scope) (ls : List Line)

section
variable {σ : Type}

/-- an outcome: how it ended, the lines not read, the state -/
abbrev Out (σ : Type) := Stat × List Line × State σ

/-- an event happens -/
def emit (c : Cfg σ) (e : Event) (st : State σ) : Stat × State σ :=
  let r := c.act st.mode e (st.cwd, st.user)
  (r.1, { st with cwd := r.2.1, user := r.2.2 })

/-- then go on, if it went well -/
def andThen {α : Type} (r : Stat × State σ) (bad : Stat → State σ → α) (k : State σ → α) : α :=
  match r with
  | (.ok, st) => k st
  | (s, st) => bad s st

/-- skip to `.endl` (lang_spice.cc:949-957) -/
def skipLib (ci : Bool) (key : List Char) (st : State σ) : List Line → Out σ
  | [] => (.eof, [], st)
  | l :: t => match umatch ci key l with
    | .ok _ => (.ok, t, st)
    | .fail => skipLib ci key st t
    | .ub => (.ub, t, st)

/-- `SET_RUN_MODE` (u_opt.h:177-191): the mode is put back, however it ends; the lines of the other file are gone -/
def inMode (m : Mode) (ls : List Line) (st : State σ) (k : State σ → Option (Out σ)) : Option (Out σ) :=
  (k { st with mode := m }).map fun r => (r.1, ls, { r.2.2 with mode := st.mode })

/-- `while (cmd.match1('<')) {command("clear", Scope); ..}` (lang_spice.cc:995-999); `n` bounds the rounds -/
def clears (c : Cfg σ) (scope : Scope) : ℕ → List Char → State σ → Stat × List Char × State σ
  | n + 1, '<' :: r, st => andThen (emit c (.clear scope) st) (fun s st => (s, r, st)) fun st => clears c scope n (skipbl r) st
  | _, s, st => (.ok, s, st)

/-- a file that cannot be opened is warned of; then the old directory (c_file.cc:80-88) -/
def warned (c : Cfg σ) (l : Line) (t : List Line) (relative : Bool) (old : List Char) (st : State σ) : Out σ :=
  andThen (emit c (.warn l) st) (fun e st => (e, t, st)) fun st => (.ok, t, if relative then { st with cwd := old } else st)

/-- one step, with what the deeper ones do (`rec`) -/
def step (c : Cfg σ) (rec : Task → State σ → Option (Out σ)) : Task → State σ → Option (Out σ)
  | .body _ _ _ _ [], st => some (.ok, [], st)                                    -- the end of input is caught
  | .body owner list key blank (l :: t), st =>
    if blank && (skipbl l).isEmpty then some (.ok, t, st)
    else match umatch c.ci key l with
      | .ub => some (.ub, t, st)
      | .ok _ => some (.ok, t, st)
      | .fail =>
        (rec (.line owner list (pre c.ci l) l t) st).bind fun r =>
          match r with
          | (.ok, t', st') => rec (.body owner list key blank t') st'
          | (.eof, t', st') => some (.ok, t', st')
          | r => some r
  | .line owner list s l t, st =>
    let scope := owner.getD []                                                     -- lang_spice.cc:500
    match kind c.ci c.dev (fun n => c.card owner n st.user) s l with
    | .ub => some (.ub, t, st)
    | .blank => some (.ok, t, st)
    | .elem => let r := emit c (.elem owner list l) st; some (r.1, t, r.2)
    | .cmd => let r := emit c (.cmd scope l) st; some (r.1, t, r.2)
    | .sub => andThen (emit c (.opens l) st) (fun e st => some (e, t, st)) fun st =>
      (rec (.body (some (l :: scope)) (l :: scope) keyEnds false t) st).bind fun r =>
        match r with
        | (.ok, t', st') => let r := emit c (.closes scope l) st'; some (r.1, t', r.2)
        | r => some r
    | .lib rest =>
      let w := word rest
      if (word w.2).1 ≠ [] then (rec (.merge scope false rest) st).map fun r => (r.1, t, r.2.2)
      else some (skipLib c.ci (keyEndl w.1) st t)
    | .incl rest => (rec (.merge scope false rest) st).map fun r => (r.1, t, r.2.2)
    | .merge rest => inMode .preset t st fun st => rec (.merge scope false rest) st
    | .get rest => inMode .preset t st fun st =>
      andThen (emit c (.clear scope) st) (fun e st => some (e, t, st)) fun st => rec (.merge scope true rest) st
    | .run rest =>
      let r := clears c scope rest.length rest st
      andThen (r.1, r.2.2) (fun e st => some (e, t, st)) fun st => inMode .script t st fun st => rec (.merge scope true r.2.1) st
    | .build =>
      (rec (.body none scope keyDot true t) { st with mode := .preset }).map fun r => (r.1, r.2.1, { r.2.2 with mode := st.mode })
    | .file relative rest =>
      let name := (word rest).1
      let full := c.find st.cwd name st.user
      let old := st.cwd
      let dir := if relative then c.enter st.cwd (c.dirname full) else st.cwd
      let full := if relative then c.basename full else full
      let st1 := { st with cwd := dir }
      match c.file dir full st.user with
      | none => some (warned c l t relative old st1)
      | some ls => (rec (.top scope ls) st1).map fun r =>
        match r with
        | (.ok, _, st') => (.ok, t, if relative then { st' with cwd := old } else st')
        | (.nofile, _, st') => warned c l t relative old st'                       -- this file, or one that it names (c_file.cc:80)
        | (e, _, st') => (e, t, st')                                               -- not caught here
  | .merge scope header rest, st =>
    match mergeArgs c.ci rest with
    | none => some (.ub, [], st)
    | some (f, sec, more) =>
      andThen (if more = [] then (.ok, st) else emit c (.warn more) st) (fun e st => some (e, [], st)) fun st =>
      match c.file st.cwd f st.user with
      | none => some (.nofile, [], st)                                             -- ap_construct.cc:62
      | some ls =>
        let go := fun (ls : List Line) (st : State σ) =>
          if sec = [] then rec (.body none scope keyEnd false ls) st else rec (.sections scope sec ls) st
        if header then
          match ls with
          | [] => some (.eof, [], st)                                              -- not caught here
          | h :: t => andThen (emit c (.title h) st) (fun e st => some (e, [], st)) fun st => go t st
        else go ls st
  | .sections _ _ [], st => some (.ok, [], st)
  | .sections scope sec (l :: t), st =>
    match umatch c.ci (keyLib sec) l with
    | .ub => some (.ub, t, st)
    | .fail => rec (.sections scope sec t) st
    | .ok _ => (rec (.body none scope (keyEndl sec) false t) st).bind fun r =>
      match r with
      | (.ok, t', st') => rec (.sections scope sec t') st'
      | r => some r
  | .top _ [], st => some (.ok, [], st)
  | .top list (l :: t), st =>
    (rec (.line none list l l t) st).bind fun r =>
      match r with
      | (.ok, t', st') => rec (.top list t') st'
      | (.eof, t', st') => some (.ok, t', st')
      | r => some r

/-- running, with fuel -/
def run (c : Cfg σ) : ℕ → Task → State σ → Option (Out σ)
  | 0 => fun _ _ => none
  | n + 1 => step c (run c n)

end

end Gnucap.Files
