/-!
# A session: arguments, files, the prompt, interrupts (model of main.cc, c_comand.cc)

What the arguments of the program do, how commands typed at the prompt follow each other, what `quit`, `end` and an interrupt do in each run
mode, and how it ends.  What a line does is a tree (`Job`): things done (given from outside, with any outcome), analyses, and files of lines.
A file that is read has its lines given; an interrupt is a point of the tree where SIGINT arrives.

Not modelled: the command `cd`; exceptions of `clear`; option `acct`; `pause`.  `longjmp` past destructors is undefined in C++ unless they are trivial; here it leaves things as they were (as it does with gcc).
-/
namespace Gnucap.Sess

/-- `RUN_MODE` after the start of main (md.h:187-195) -/
inductive Mode where
  | preset | interactive | script | batch
  deriving DecidableEq, Repr

/-- how a file is read: `<`, `get`, `merge`, `.include` (lang_spice.cc:966-1017), "`include" of c_file.cc:40-93 for a file in a directory -/
inductive How where
  | run | get | merge | incl | rel (dir : List Char)
  deriving DecidableEq, Repr

/-- what a line does -/
inductive Job (α : Type) where
  | nop
  /-- a command that does not look at the run mode -/
  | act (a : α)
  /-- an analysis -/
  | ana (a : α)
  | quit
  | fin
  /-- SIGINT comes here -/
  | intr
  /-- one line, then others -/
  | seq (a b : Job α)
  /-- a file with lines in it -/
  | file (h : How) (body : Job α)
  /-- a file with nothing in it -/
  | hollow (h : How)
  deriving DecidableEq, Repr

/-- how an action ends: without exception, with one, with `Exception_End_Of_Input` -/
inductive Got where
  | done | exc | eof
  deriving DecidableEq, Repr

/-- how a line ends; `jump` is `siglongjmp(env.p, 1)` -/
inductive Stop where
  | ok | exc | eof | exit (code : Nat) | jump
  deriving DecidableEq, Repr

/-- the run mode, the directory, everything else -/
structure St (σ : Type) where
  mode : Mode
  cwd : List Char
  user : σ
  deriving DecidableEq, Repr

/-- what an argument asks for -/
inductive Req where
  /-- a command, by `cmdproc` -/
  | text (t : List Char)
  /-- "`include name" -/
  | incl (n : List Char)
  /-- `< name` -/
  | run (n : List Char)
  /-- `attach name` -/
  | load (n : List Char)
  deriving DecidableEq, Repr

/-- what is given from outside -/
structure World (α σ : Type) where
  does : α → List Char → σ → Got × σ
  /-- `setup` of an analysis: did it go well -/
  sets : α → σ → Bool × σ
  /-- `sweep` and `final` of an analysis, with its own exceptions caught -/
  sweeps : α → σ → σ
  /-- `command("clear")` -/
  clear : σ → σ
  /-- `plclose(); outreset();` -/
  tidy : σ → σ
  /-- `command("detach_all")` -/
  detach : σ → σ
  /-- the lines of what is asked for, with the directory it is asked in -/
  job : Req → List Char → Job α

variable {α σ : Type}

/-- `CMD_QUIT` (c_comand.cc:75-87) -/
def doQuit (W : World α σ) (st : St σ) : Stop × St σ := match st.mode with
  | .preset => (.ok, st)
  | _ => (.exit 0, { st with user := W.clear st.user })

/-- `CMD_END` (c_comand.cc:31-60), with option `acct` not set -/
def doEnd (W : World α σ) (st : St σ) : Stop × St σ := match st.mode with
  | .preset => (.ok, st)
  | .script => (.exc, st)
  | _ => doQuit W st

/-- `SIM::command_base` (s__init.cc:30-73): all exceptions are caught; nothing is run in mode preset -/
def doAna (W : World α σ) (a : α) (st : St σ) : Stop × St σ :=
  let r := W.sets a st.user
  (.ok, { st with user := if r.1 && st.mode != .preset then W.sweeps a r.2 else r.2 })

/-- `sig_int` (main.cc:133-142) -/
def doIntr (st : St σ) : Stop × St σ := if st.mode = .batch then (.exit 1, st) else (.jump, st)

/-- the run mode a file is read in (lang_spice.cc:966-1017, c_file.cc:40-93) -/
def How.mode : How → Mode → Mode
  | .run, _ => .script
  | .get, _ => .preset
  | .merge, _ => .preset
  | .incl, m => m
  | .rel _, m => m

/-- the directory a file is read in (c_file.cc:63-68) -/
def How.dir (h : How) (cwd : List Char) : List Char := match h with
  | .rel d => d
  | _ => cwd

/-- what `SET_RUN_MODE` (u_opt.h:177-191) and c_file.cc:82-88 do when the lines of a file are over: an end of input is caught; an exception passes
through and puts the mode back, not the directory; `exit` and `siglongjmp` put nothing back -/
def leave (old : St σ) : Stop × St σ → Stop × St σ
  | (.ok, st) => (.ok, { st with mode := old.mode, cwd := old.cwd })
  | (.eof, st) => (.ok, { st with mode := old.mode, cwd := old.cwd })
  | (.exc, st) => (.exc, { st with mode := old.mode })
  | r => r

/-- a file with no line (lang_spice.cc:908-916): `<` and `get` want a title, `clear` of get is done before -/
def doHollow (W : World α σ) (h : How) (st : St σ) : Stop × St σ := match h with
  | .run => (.eof, st)
  | .get => (.eof, { st with user := W.clear st.user })
  | _ => (.ok, st)

/-- a line -/
def exec (W : World α σ) : Job α → St σ → Stop × St σ
  | .nop, st => (.ok, st)
  | .act a, st =>
    let r := W.does a st.cwd st.user
    (match r.1 with | .done => .ok | .exc => .exc | .eof => .eof, { st with user := r.2 })
  | .ana a, st => doAna W a st
  | .quit, st => doQuit W st
  | .fin, st => doEnd W st
  | .intr, st => doIntr st
  | .seq a b, st => match exec W a st with
    | (.ok, st') => exec W b st'
    | r => r
  | .file h body, st =>
    leave st (exec W body { mode := h.mode st.mode, cwd := h.dir st.cwd, user := if h = .get then W.clear st.user else st.user })
  | .hollow h, st => doHollow W h st

/-- `finish()` (main.cc:167-171) -/
def finish (W : World α σ) (st : St σ) : St σ := { st with user := W.tidy st.user }

/-- `strcasecmp(argv[ii], "-c") == 0` (main.cc:183, 190, 196, 213) -/
def isOpt (c : Char) (a : List Char) : Bool := a == ['-', c] || a == ['-', c.toUpper]

/-- how the command line ends: go on to the prompt, `Exception_Quit`, the process is over -/
inductive Over where
  | prompt | leaves | exit (code : Nat) | jump
  deriving DecidableEq, Repr

/-- one thing asked for, with its exceptions caught (main.cc:175-182, 204-207, 222-225, 232-238) -/
def ask (W : World α σ) (r : Req) (st : St σ) (next : St σ → Over × St σ) : Over × St σ :=
  match exec W (W.job r st.cwd) st with
  | (.ok, st') => next st'
  | (.exc, st') => next (finish W st')
  | (.eof, st') => next (finish W st')
  | (.exit c, st') => (.exit c, st')
  | (.jump, st') => (.jump, st')

/-- the name of the standard input (main.cc:202) -/
def stdin : List Char := ['/', 'd', 'e', 'v', '/', 's', 't', 'd', 'i', 'n']

/-- after a file: leave, if it was the last argument (main.cc:208-212, 226-230) -/
def lastOr (rest : List (List Char)) (go : St σ → Over × St σ) (st : St σ) : Over × St σ :=
  if rest = [] then (.leaves, st) else go st

/-- `process_cmd_line` (main.cc:173-240) -/
def cmdline (W : World α σ) : List (List Char) → St σ → Over × St σ
  | [], st => (.prompt, st)
  | a :: rest, st =>
    if ['-', '-'].isPrefixOf a then ask W (.text (a.drop 2)) st (cmdline W rest)
    else if isOpt 'c' a then match rest with
      | [] => (.prompt, st)
      | t :: rest' => ask W (.text t) st (cmdline W rest')
    else if isOpt 'i' a then match rest with
      | [] => (.prompt, st)
      | f :: rest' => ask W (.incl f) st (cmdline W rest')
    else if isOpt 'b' a then match rest with
      | [] => ask W (.run stdin) st (lastOr [] (fun s => (.prompt, s)))
      | f :: rest' => ask W (.run f) st (lastOr rest' (cmdline W rest'))
    else if isOpt 'a' a then match rest with
      | [] => (.prompt, st)
      | f :: rest' => ask W (.load f) st (cmdline W rest')
    else ask W (.incl a) st (lastOr rest (cmdline W rest))

/-- how the process ends: killed by the signal; else with a code, and what is left -/
inductive End (σ : Type) where
  | killed
  | code (c : Nat) (st : St σ)
  deriving DecidableEq, Repr

/-- `clear`, `detach_all`, `return 0` (main.cc:308-316) -/
def close (W : World α σ) (st : St σ) : End σ := .code 0 { st with user := W.detach (W.clear st.user) }

/-- the loop at the prompt (main.cc:273-301); the list is what is typed until end of input -/
def prompt (W : World α σ) : List (Job α) → St σ → End σ
  | [], st => close W (finish W st)
  | j :: js, st => match exec W j st with
    | (.ok, st') => prompt W js st'
    | (.exc, st') => prompt W js (finish W st')
    | (.eof, st') => close W (finish W st')
    | (.exit c, st') => .code c st'
    | (.jump, st') => prompt W js (finish W st')

/-- `main` (main.cc:242-318): the startup files are read before the trap is set (main.cc:255-256), outside of any inner `try` (main.cc:302-305) -/
def main (W : World α σ) (startup : Job α) (args : List (List Char)) (typed : List (Job α)) (cwd : List Char) (u : σ) : End σ :=
  match exec W startup { mode := .batch, cwd := cwd, user := u } with
  | (.ok, st) => match cmdline W args st with
    | (.prompt, st') => prompt W typed { st' with mode := .interactive }
    | (.leaves, st') => close W st'
    | (.exit c, st') => .code c st'
    | (.jump, st') => .code 0 (finish W st')
  | (.exc, st) => close W st
  | (.eof, st) => close W st
  | (.exit 0, st) => .code 0 st
  | (.exit _, _) => .killed
  | (.jump, _) => .killed

end Gnucap.Sess
