import Verif.OutModel

/-!
# The files of `log` and `>` (C105)

Models the two commands that copy a session to files (c_file.cc:102-181), the lines read from the user that are copied (ap_construct.cc:
211-224), and the table of files all output goes through (io_.h:50-78, io_out.cc:192-221; the table itself is `Out.handle`).
A `FILE*` is a number that `fopen` gives; `fclose` makes it free again, and `fopen` may give it once more.  Files are numbered in the order
they are opened; 0 is standard output.  A write to a `FILE*` that is not open has no outcome (`none`).
Left out: names (two files opened by the same name are two files here), `clobber`, flushing, `\r` written to the screen when the user types,
`cipher` and `pack`, the breaking of long lines (C79); warnings are always printed (`picky`).
-/
namespace Gnucap.Logf
open Gnucap.Out (File Table handle emptyTable)

/-- `_stream` (io_.h:35); the `FILE*` that are open, each with the number of its file; the number of files opened; the two `filestack`
(c_file.cc:109, 152), newest first; the masks of `mlog`, `mout` (ap_construct.cc:34-35) and `IO::mstdout` (io.cc:27), bit by bit;
the text of each file; `_cpos` (io_.h:36) -/
structure S where
  table : Table
  live : List (File × ℕ)
  next : ℕ
  logs : List File
  outs : List File
  mlog : ℕ → Bool
  mout : ℕ → Bool
  mstd : ℕ → Bool
  text : ℕ → List Char
  col : ℕ → ℕ

/-- at the start: `IO::mstdout(stdout)`, `mlog` and `mout` without files (io.cc:27, ap_construct.cc:34-35) -/
def init : S where
  table := (handle 0 emptyTable).1
  live := [(0, 0)]
  next := 1
  logs := []
  outs := []
  mlog := fun _ => false
  mout := fun _ => false
  mstd := fun i => (handle 0 emptyTable).2 == some i
  text := fun _ => []
  col := fun _ => 0

/-- the mask of `OMSTREAM(FILE*)` (io_.h:50-70) -/
def bit (f : File) (t : Table) (i : ℕ) : Bool := (handle f t).2 == some i

/-- `attach` (io_.h:72): the bits of both -/
def join (a b : ℕ → Bool) (i : ℕ) : Bool := a i || b i

/-- `detach` (io_.h:74): the bits of the first that the second has not -/
def without (a b : ℕ → Bool) (i : ℕ) : Bool := a i && !b i

/-- the file behind place `i`: the `FILE*` in the table, if it is open -/
def fileAt (w : S) (i : ℕ) : Option ℕ := (w.table[i]?).join.bind fun f => w.live.lookup f

/-- `_cpos` after a character, and after many (io_out.cc:198-205) -/
def adv (c : ℕ) (s : List Char) : ℕ := s.foldl (fun c x => if x = '\n' then 0 else c + 1) c

/-- one place of the loop of `operator<<` (io_out.cc:192-221) -/
def putAt (m : ℕ → Bool) (s : List Char) (w : S) (i : ℕ) : Option S :=
  if m i then (fileAt w i).map fun n =>
    { w with text := fun j => if j = n then w.text j ++ s else w.text j, col := fun j => if j = i then adv (w.col j) s else w.col j }
  else some w

/-- `operator<<` of a stream with this mask: place after place; `none`: a file that is not open is written to -/
def put (m : ℕ → Bool) (s : List Char) (w : S) : Option S := (List.range 31).foldlM (putAt m s) w

/-- `fopen`: which `FILE*` it gives, the number of files opened before and the ones open now being given -/
abbrev Alloc := ℕ → List File → File

/-- the `FILE*` that `fopen` gives now -/
def given (al : Alloc) (w : S) : File := al w.next (w.live.map Prod.fst)

/-- `fopen` (io_xopen.cc:105) -/
def fopen (al : Alloc) (w : S) : S := { w with live := (given al w, w.next) :: w.live, next := w.next + 1 }

/-- `fclose`; `none`: it is not open -/
def fclose (f : File) (w : S) : Option S :=
  if f ∈ w.live.map Prod.fst then some { w with live := w.live.filter fun x => x.1 ≠ f } else none

/-- `error` (io_error.cc:66-77): to `IO::error`, which is made of `stdout` and never changed (io.cc:28) -/
def warn (s : List Char) (w : S) : Option S := put (fun i => (handle 0 emptyTable).2 == some i) s w

/-- the message of c_file.cc:126, 170 -/
def noFiles : List Char := "no files open\n".toList

/-- what a command does: `log` with a name (`some e`: it can not be opened, with this message), `log` alone, `>` with a name, `>` alone,
a command that writes to the screen, a command with `>` and a name on its line, with `echo` before it or not (io_contr.cc:115-147),
a command that gives a warning -/
inductive Cmd where
  | log (e : Option (List Char))
  | endlog
  | out (e : Option (List Char))
  | endout
  | print (s : List Char)
  | redirect (echo : Bool) (s : List Char)
  | warn (s : List Char)
deriving DecidableEq

/-- `CMD_LOG::do_it` (c_file.cc:104-134), `CMD_FILE::do_it` (147-179), and others (s_dc.cc:214, io_contr.cc:85-152) -/
def exec (al : Alloc) (w : S) : Cmd → Option S
  | .log (some e) => warn e w
  | .log none =>
    let p := given al w
    let w := fopen al w
    some { w with logs := p :: w.logs, mlog := join w.mlog (bit p w.table), table := (handle p w.table).1 }
  | .endlog =>
    match w.logs with
    | [] => warn noFiles w
    | p :: r => fclose p { w with logs := r, mlog := without w.mlog (bit p w.table), table := (handle p w.table).1 }
  | .out (some e) => warn e w
  | .out none =>
    let p := given al w
    let w := fopen al w
    let w := { w with outs := p :: w.outs, mout := join w.mout (bit p w.table), table := (handle p w.table).1 }
    some { w with mstd := join w.mstd (bit p w.table), table := (handle p w.table).1 }
  | .endout =>
    match w.outs with
    | [] => warn noFiles w
    | p :: r =>
      let w := { w with outs := r, mout := without w.mout (bit p w.table), table := (handle p w.table).1 }
      fclose p { w with mstd := without w.mstd (bit p w.table), table := (handle p w.table).1 }
  | .print s => put w.mstd s w
  | .redirect echo s =>
    let p := given al w
    let w := fopen al w
    let m := join w.mstd (bit p w.table)
    let w := { w with table := (handle p w.table).1 }
    (put (if echo then m else without m w.mstd) s w).bind (fclose p)
  | .warn s => warn s w

/-- a line typed by the user or read from standard input, which is copied to the files of `mlog` and `mout` before it is carried out
(ap_construct.cc:213, 222), or a line of an included file, which is not (150-154) -/
inductive Line where
  | typed (s : List Char) (c : Cmd)
  | included (c : Cmd)
deriving DecidableEq

/-- one line (main.cc:276-283) -/
def step (al : Alloc) (w : S) : Line → Option S
  | .typed s c => (put (join w.mlog w.mout) (s ++ ['\n']) w).bind fun w => exec al w c
  | .included c => exec al w c

/-- a session -/
def run (al : Alloc) (w : S) (l : List Line) : Option S := l.foldlM (step al) w

end Gnucap.Logf
