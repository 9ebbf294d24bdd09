import Verif.LinesModel

/-!
# Output (C79)

Models OMSTREAM (io_.h, io_out.cc): lines that are broken and columns, and the table of files behind it (io_.h:50-78, io_contr.cc).
A file is the text written to it.  Left out: `cipher`, the buffer of `form`, flushing.
-/
namespace Gnucap.Out

/-- one place of the tables `_stream` and `_cpos` (io_.h:35-36): the text written, the column -/
structure H where
  text : List Char
  cpos : ℕ
deriving DecidableEq

/-- all places, and the last character (`old`, io_out.cc:170), which all share -/
structure W where
  h : ℕ → H
  old : Char

/-- `_mask` (io_.h:37), bit by bit, and `_pack` -/
structure Om where
  mask : ℕ → Bool
  pack : Bool

/-- the number of places (`MAXHANDLE + 1`, io_.h:31) -/
def handles : ℕ := 32

/-- one place of `operator<<(char)` (io_out.cc:193-219): the character after 174-179, whether it counts, whether it is suppressed.
`size_t` goes around below 0.  A return at column 0 (207-208) is not met: the column is counted up first. -/
def putH (c : Char) (count suppress : Bool) (h : H) : H :=
  let n := if c = '\x08' then (h.cpos + (2 ^ 64 - 1)) % 2 ^ 64 else if count then h.cpos + 1 else h.cpos
  ⟨if suppress then h.text else h.text ++ [c], if c = '\n' ∨ c = '\r' then 0 else n⟩

/-- `operator<<(char)` (io_out.cc:161-223); no place depends on another one -/
def putc (o : Om) (chr : Char) (w : W) : W :=
  let c := if chr = '\t' then ' ' else chr
  let count := chr ≠ '\t'
  let suppress := o.pack && w.old = ' ' && c = ' '
  ⟨fun i => if o.mask i then putH c count suppress (w.h i) else w.h i, c⟩

/-- the length looked at (io_out.cc:112-126) -/
def need (s : List Char) : ℕ :=
  match s.getLast? with
  | some '@' => s.length + 16
  | some '=' => s.length + 15
  | some '(' => s.length + 12
  | _ => s.length

/-- "see if it fits" (io_out.cc:130-134) at one place -/
def breaks (width : ℕ) (s : List Char) (h : H) : Bool := decide (width ≤ need s + h.cpos) && decide (h.cpos ≠ 0)

/-- a new line, and `+` (io_out.cc:133-134); `this_file` does not pack -/
def breakH (h : H) : H := putH '+' true false (putH '\n' true false h)

/-- what is written of it (io_out.cc:148-150): all, but not an `@` at the end -/
def shown (s : List Char) : List Char := if s.getLast? = some '@' then s.dropLast else s

/-- `operator<<(const char*)` (io_out.cc:100-152) -/
def puts (width : ℕ) (o : Om) (s : List Char) (w : W) : W :=
  let w1 : W := ⟨fun i => if o.mask i && breaks width s (w.h i) then breakH (w.h i) else w.h i,
    if (List.range handles).any (fun i => o.mask i && breaks width s (w.h i)) then '+' else w.old⟩
  (shown s).foldl (fun w c => putc o c w) w1

/-- blanks up to the column (io_out.cc:67-69), `n` of them -/
def padH : ℕ → H → H
  | 0, h => h
  | n + 1, h => padH n (putH ' ' true false h)

/-- `tab` (io_out.cc:58-74) at one place -/
def tabH (count : ℕ) (h : H) : H :=
  let h1 := if count < h.cpos then putH '\n' true false h else h
  padH (count - h1.cpos) h1

/-- the last character `tab` writes at a place -/
def tabOld (count : ℕ) (h : H) : Option Char :=
  if (if count < h.cpos then 0 else h.cpos) < count then some ' ' else if count < h.cpos then some '\n' else none

/-- `tab` (io_out.cc:58-74) -/
def tab (count : ℕ) (o : Om) (w : W) : W :=
  ⟨fun i => if o.mask i then tabH count (w.h i) else w.h i,
   (List.range handles).foldl (fun c i => if o.mask i then (tabOld count (w.h i)).getD c else c) w.old⟩

/-- what is asked of an OMSTREAM -/
inductive Op where
  | chr (c : Char)
  | str (s : List Char)
  | tab (n : ℕ)

/-- one of them -/
def step (width : ℕ) (w : W) (a : Om × Op) : W :=
  match a.2 with
  | .chr c => putc a.1 c w
  | .str s => puts width a.1 s w
  | .tab n => tab n a.1 w

/-- many, by any objects -/
def run (width : ℕ) (w : W) (l : List (Om × Op)) : W := l.foldl (step width) w

/-! ## The table of files -/

/-- A `FILE*`.  `_stream` keeps it after `fclose`; nothing ever takes it out (io_.h:50-78, io_xopen.cc:34-40). -/
abbrev File := ℕ

/-- `_stream`: the places 1 to 31; `none`: not used yet -/
abbrev Table := List (Option File)

/-- `OMSTREAM(FILE*)` (io_.h:50-70): the table after, and the bit; no bit if the table is full -/
def handle (f : File) : Table → Table × Option ℕ
  | [] => ([], none)
  | none :: t => (some f :: t, some 0)
  | some g :: t => if g = f then (some g :: t, some 0) else
    let r := handle f t
    (some g :: r.1, r.2.map (· + 1))

/-- the table at the start: nothing in it -/
def emptyTable : Table := List.replicate 31 none

/-- what `outset` finds on the line (io_contr.cc:104-150), one after the other; the file that is opened: `fopen` gives a pointer to it -/
inductive Want where
  | basic
  | quiet
  | echo
  | save (f : File)
  | redirect (f : File)
deriving DecidableEq

/-- `_stream`, the file `fn` that is open (io_contr.cc:36), the bits of the output, the flag `echo`, whether numbers have exponents -/
structure Ctl where
  table : Table
  fn : Option File
  mask : ℕ → Bool
  echo : Bool
  fmt : Bool

/-- `attach(FILE*)` (io_.h:72-73) -/
def attach (f : File) (c : Ctl) : Ctl :=
  let r := handle f c.table
  { c with table := r.1, mask := fun i => c.mask i || (r.2 = some i) }

/-- one round of `outset` (io_contr.cc:105-146), standard output at place `out`; `file_open` closes the file that is open (162) -/
def outset1 (out : ℕ) (c : Ctl) : Want → Ctl
  | .basic => { c with fmt := true }
  | .quiet => { c with echo := false, mask := fun i => c.mask i && i != out }
  | .echo => { c with echo := true, mask := fun i => c.mask i || i == out }
  | .save f => attach f { c with fn := some f }
  | .redirect f =>
    let c := attach f { c with fn := some f }
    { c with fmt := true, mask := fun i => if c.echo then c.mask i else c.mask i && i != out }

/-- `outset` (io_contr.cc:101-152) -/
def outset (out : ℕ) (c : Ctl) (l : List Want) : Ctl := l.foldl (outset1 out) { c with echo := false }

/-- `outreset` (io_contr.cc:85-96) -/
def outreset (c : Ctl) : Ctl := { c with fn := none, fmt := false }

/-! ## The file that is open -/

/-- `fn` (io_contr.cc:36), and the files that are open -/
structure Fn where
  fn : Option File
  live : List File

/-- `xclose` (io_xopen.cc:34-40); `none`: `fclose` of a file that is closed -/
def xclose (f : Option File) (live : List File) : Option (List File) :=
  match f with
  | none => some live
  | some f => if f ∈ live then some (live.erase f) else none

/-- what is done with it: opened (`none`: it can not be), reset -/
inductive FnOp where
  | open (f : Option File)
  | reset
deriving DecidableEq

/-- `file_open` (io_contr.cc:119, 139, 156-169), which closes its copy of `fn` and throws before `fn` is set, and `outreset` (92), which
comes after every command, also after an exception (main.cc:167-171) -/
def fnStep (s : Fn) : FnOp → Option Fn
  | .open f => (xclose s.fn s.live).map fun live =>
    match f with
    | none => ⟨s.fn, live⟩
    | some f => ⟨some f, f :: live⟩
  | .reset => (xclose s.fn s.live).map fun live => ⟨none, live⟩

/-- many -/
def fnRun (s : Fn) (l : List FnOp) : Option Fn := l.foldlM fnStep s

end Gnucap.Out
