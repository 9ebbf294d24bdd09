/-!
# Plugins: attach, detach, detach_all, and the search for files (model of c_attach.cc, io_findf.cc)

The system is given from outside: which files can be read, which names are directories and what is in them, which files are libraries.  `dlopen`
of a library that is open already gives the same handle and counts it once more; `dlclose` counts it down; it is gone at 0 (dlopen(3)).

A command is given by its words (the scanning of words is in ScanModel).
-/
namespace Gnucap.Plug

abbrev Name := List Char

/-! ## Search -/

/-- `strchr(ENDDIR, p_ptr[-1])` (io_findf.cc:52, md.h:86): does the item end with '/' -/
def endsDir (item : Name) : Bool := item.getLast? == some '/'

/-- what is tried for an item of the path (io_findf.cc:48-57) -/
def target (item file : Name) : Name :=
  if !item.isEmpty && !endsDir item then item ++ '/' :: file else item ++ file

/-- one item of the path, and what is left with its ':' (io_findf.cc:48-51); reading `*path.end()` gives '\0' -/
def item : List Char → Name × List Char
  | [] => ([], [])
  | ':' :: p => ([], ':' :: p)
  | c :: p => (c :: (item p).1, (item p).2)

theorem item_le : ∀ p : List Char, (item p).2.length ≤ p.length
  | [] => Nat.le_refl _
  | c :: p => by
    have := item_le p
    unfold item
    split
    · simp_all
    · simp_all
    · rename_i h; cases h; simp only [List.length_cons]; omega

/-- `findfile` (io_findf.cc:37-69), without CHECK_LOCAL_FIRST: "" if it is not found -/
def findfile (ok : Name → Bool) (file : Name) (path : List Char) : Name :=
  if path = [] then []
  else
    let t := target (item path).1 file
    if ok t then t
    else match _h : (item path).2 with
      | [] => []
      | _ :: p => findfile ok file p
termination_by path.length
decreasing_by
  have := item_le path
  rw [_h] at this
  simp only [List.length_cons] at this
  omega

/-! ## Libraries -/

/-- what is given from outside -/
structure Sys (L : Type) where
  /-- `access(name, R_OK)` -/
  ok : Name → Bool
  /-- `opendir` and `readdir`: the names in a directory, if it is one -/
  dir : Name → Option (List Name)
  /-- the library of a file, if `dlopen` works; the same file by another name is the same library -/
  lib : Name → Option L

/-- `attach_list` (c_attach.cc:31), a `std::map`: sorted by name; a null pointer is `none` -/
abbrev Map (L : Type) := List (Name × Option L)

/-- the list, and the counts of the loader -/
structure St (L : Type) where
  list : Map L
  count : L → Nat

inductive Err where
  | notFound | isLoaded | cantOpen | notAttached | circuit
  deriving DecidableEq, Repr

variable {L : Type} [DecidableEq L]

/-- `attach_list[n]`, read; with no entry it makes one with a null pointer, see `put` -/
def look (n : Name) : Map L → Option L
  | [] => none
  | (m, h) :: t => if m = n then h else look n t

/-- a new entry, at its place -/
def insert (n : Name) (h : Option L) : Map L → Map L
  | [] => [(n, h)]
  | (m, g) :: t => if n < m then (n, h) :: (m, g) :: t else (m, g) :: insert n h t

/-- `attach_list[n] = h` -/
def put (n : Name) (h : Option L) (t : Map L) : Map L :=
  if t.any (fun e => e.1 == n) then t.map (fun e => if e.1 = n then (n, h) else e) else insert n h t

def dlopened (c : L → Nat) (l : L) : L → Nat := fun k => if k = l then c k + 1 else c k
def dlclosed (c : L → Nat) (l : L) : L → Nat := fun k => if k = l then c k - 1 else c k

/-- `attach_file` (c_attach.cc:169-196) -/
def attachFile (S : Sys L) (empty : Bool) (n : Name) (s : St L) : Option Err × St L :=
  match look n s.list with
  | some h =>
    if empty then
      let s' : St L := ⟨put n none s.list, dlclosed s.count h⟩
      match S.lib n with
      | some l => (none, ⟨put n (some l) s'.list, dlopened s'.count l⟩)
      | none => (some .cantOpen, s')
    else (some .isLoaded, s)
  | none =>
    let s' : St L := ⟨put n none s.list, s.count⟩
    match S.lib n with
    | some l => (none, ⟨put n (some l) s'.list, dlopened s'.count l⟩)
    | none => (some .cantOpen, s')

/-- `detach_file` (c_attach.cc:198-216) -/
def detachFile (empty : Bool) (n : Name) (s : St L) : Option Err × St L :=
  if empty then match look n s.list with
    | some h => (none, ⟨put n none s.list, dlclosed s.count h⟩)
    | none => (some .notAttached, ⟨put n none s.list, s.count⟩)
  else (some .circuit, s)

/-- `.so` (c_attach.cc:32) -/
def suffix : Name := ['.', 's', 'o']

/-- the names that end with `.so` (c_attach.cc:147-154) -/
def isPlugin (f : Name) : Bool := if f.length < suffix.length then false else f.drop (f.length - suffix.length) == suffix

/-- `std::sort` of names (c_attach.cc:156), as insertion -/
def sortIn (n : Name) : List Name → List Name
  | [] => [n]
  | m :: t => if n < m then n :: m :: t else m :: sortIn n t

def plugins (fs : List Name) : List Name := (fs.filter isPlugin).foldr sortIn []

/-- files one after the other; the first exception ends it (c_attach.cc:159-166) -/
def each (f : Name → St L → Option Err × St L) : List Name → St L → Option Err × St L
  | [], s => (none, s)
  | n :: ns, s => match f n s with
    | (none, s') => each f ns s'
    | r => r

/-- the name of the file asked for (c_attach.cc:64-83) -/
def full (S : Sys L) (path : List Char) (short : Name) : Option Name :=
  if short.head? = some '/' ∨ short.head? = some '.' then if S.ok short then some short else none
  else match findfile S.ok short path with
    | [] => none
    | n => some n

/-- `load_or_unload` (c_attach.cc:55-97) with a name; `f` is `attach_file` or `detach_file` -/
def loadOr (S : Sys L) (path : List Char) (f : Name → St L → Option Err × St L) (short : Name) (s : St L) : Option Err × St L :=
  match full S path short with
  | none => (some .notFound, s)
  | some n => match S.dir n with
    | some fs => each f ((plugins fs).map (fun p => n ++ '/' :: p)) s
    | none => f n s

/-- everything in the list is closed (c_attach.cc:250-259) -/
def closeAll : Map L → (L → Nat) → Map L × (L → Nat)
  | [], c => ([], c)
  | (n, some h) :: t, c => let r := closeAll t (dlclosed c h); ((n, none) :: r.1, r.2)
  | (n, none) :: t, c => let r := closeAll t c; ((n, none) :: r.1, r.2)

/-- a command, and whether there is no circuit when it comes -/
inductive Cmd where
  | attach (short : Name) (empty : Bool)
  | detach (short : Name) (empty : Bool)
  | detachAll (empty : Bool)

/-- a command (c_attach.cc:100-126, 217-230, 242-263) -/
def run (S : Sys L) (path : List Char) (c : Cmd) (s : St L) : Option Err × St L := match c with
  | .attach n e => loadOr S path (attachFile S e) n s
  | .detach n e => loadOr S path (detachFile e) n s
  | .detachAll e => if e then (none, ⟨(closeAll s.list s.count).1, (closeAll s.list s.count).2⟩) else (some .circuit, s)

/-- nothing attached -/
def init : St L := ⟨[], fun _ => 0⟩

/-- commands, one after the other, each with the system as it is then; an exception ends the command only -/
def runs (path : List Char) : List (Sys L × Cmd) → St L → St L
  | [], s => s
  | (S, c) :: cs, s => runs path cs (run S path c s).2

/-- `list` (c_attach.cc:39-49): what is shown -/
def listed (s : St L) : List Name := (s.list.filter (fun e => e.2.isSome)).map (·.1)

end Gnucap.Plug
