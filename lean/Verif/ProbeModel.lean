import Mathlib.Data.List.Basic
import Mathlib.Logic.Function.Basic

/-!
# Probes and the count of the probed objects

Every node or device counts the probes set on it.  Probes live in vectors (`PROBELIST`); the vectors copy,
assign and destroy them.

`none` as a result of a function that changes counts is undefined behaviour: a destroyed object is
touched, or `assert(_probes>0)` or `assert(_probes==0)` fails.

Simplification: objects are numbers (addresses, which may be used again); the object of a probe is an
`Option` (system probes have none); the rest of a probe is one value of a type `W`.  The library's
`push_back`, `remove` and `erase` are modelled by the copies, assignments and destructions they make.
A `PROBE` is itself a `CKT_BASE`, but nothing sets probes on probes.
-/
namespace Gnucap.Probe

/-- `PROBE` (`include/u_probe.h:30-34`): `_brh`, and (as one value) `_what`, `_lo`, `_hi` -/
structure Probe (W : Type) where
  brh : Option ℕ
  rest : W
deriving DecidableEq

/-- `_probes` (`include/e_base.h:39`) of all objects; `none`: there is no such object (any more) -/
abbrev Counts := ℕ → Option ℕ

variable {W : Type}

/-- `if (_brh) _brh->inc_probes()` (`lib/u_probe.cc:37-40`, `50-53`, `66-69`, `include/e_base.h:75`) -/
def inc (b : Option ℕ) (n : Counts) : Option Counts := match b with
  | none => some n
  | some x => match n x with
    | none => none
    | some k => some (Function.update n x (some (k + 1)))

/-- `if (_brh) _brh->dec_probes()` (`lib/u_probe.cc:80-83`, `include/e_base.h:76`) -/
def dec (b : Option ℕ) (n : Counts) : Option Counts := match b with
  | none => some n
  | some x => match n x with
    | none => none
    | some 0 => none
    | some (k + 1) => some (Function.update n x (some k))

/-- `PROBE::operator=` (`lib/u_probe.cc:59-71`, with `detach` `78-86`), source and target different: the
new target and the counts -/
def assign (target source : Probe W) (n : Counts) : Option (Probe W × Counts) :=
  match dec target.brh n with
  | none => none
  | some n => (inc source.brh n).map fun n => (source, n)

/-- `PROBE::operator=` of a probe to itself (`lib/u_probe.cc:59-71`): `detach` blanks `_what` and `_brh`
before they are copied; `blank` blanks `_what` -/
def assignSelf (blank : W → W) (p : Probe W) (n : Counts) : Option (Probe W × Counts) :=
  match dec p.brh n with
  | none => none
  | some n => some (⟨none, blank p.rest⟩, n)

/-- the destructor (`include/u_probe.h:39`) of all in a list -/
def destroyAll : List (Probe W) → Counts → Option Counts
  | [], n => some n
  | p :: r, n => match dec p.brh n with
    | none => none
    | some n => destroyAll r n

/-- the copy constructor (`lib/u_probe.cc:43-54`) of all in a list -/
def copyAll : List (Probe W) → Counts → Option Counts
  | [], n => some n
  | p :: r, n => match inc p.brh n with
    | none => none
    | some n => copyAll r n

/-- copy all to a new place, destroy the old ones -/
def move (l : List (Probe W)) (n : Counts) : Option Counts :=
  match copyAll l n with
  | none => none
  | some n => destroyAll l n

/-- `bag.push_back(PROBE(param, object))` (`lib/u_prblst.cc:195-198`): a temporary is made
(`lib/u_probe.cc:30-41`), copied, and destroyed; if the vector has to grow (`grow`), its elements are
moved. -/
def push (grow : Bool) (p : Probe W) (l : List (Probe W)) (n : Counts) :
    Option (List (Probe W) × Counts) :=
  match inc p.brh n with
  | none => none
  | some n => match inc p.brh n with
    | none => none
    | some n => match (if grow then move l n else some n) with
      | none => none
      | some n => (dec p.brh n).map fun n => (l ++ [p], n)

/-- `std::remove`: `kept` are the elements at their final places, `gap` the elements between there and the
read position (they will be assigned to), the third list the elements not looked at yet.  Until the first
match nothing is assigned. -/
def removeLoop (q : Probe W → Bool) : List (Probe W) → List (Probe W) → List (Probe W) → Counts →
    Option (List (Probe W) × List (Probe W) × Counts)
  | kept, gap, [], n => some (kept, gap, n)
  | kept, gap, p :: r, n =>
    if q p then removeLoop q kept (gap ++ [p]) r n
    else match gap with
      | [] => removeLoop q (kept ++ [p]) [] r n
      | g :: gs => match assign g p n with
        | none => none
        | some (g', n) => removeLoop q (kept ++ [g']) (gs ++ [p]) r n

/-- `erase(remove(begin(), end(), x), end())` (`PROBELIST::remove_one`, `lib/u_prblst.cc:116-122`, and
`PROBELIST::remove_list`, `92-94`; `q` is `operator==`, `103-106` and `65-68`) -/
def removeIf (q : Probe W → Bool) (l : List (Probe W)) (n : Counts) : Option (List (Probe W) × Counts) :=
  match removeLoop q [] [] l n with
  | none => none
  | some (kept, gap, n) => (destroyAll gap n).map fun n => (kept, n)

/-- `PROBE_LISTS::purge(brh)` (`lib/u_prblst.cc:32-40`).  The four kinds of lists for every kind of
simulation (`include/u_prblst.h:64-67`) are one list of lists. -/
def purge (b : ℕ) : List (List (Probe W)) → Counts → Option (List (List (Probe W)) × Counts)
  | [], n => some ([], n)
  | l :: r, n => match removeIf (fun p => p.brh == some b) l n with
    | none => none
    | some (l', n) => (purge b r n).map fun x => (l' :: x.1, x.2)

/-- All probe lists, and the counts. -/
structure State (W : Type) where
  lists : List (List (Probe W))
  n : Counts

inductive Op (W : Type) where
  /-- a node or device is made at address `b` (`include/e_base.h:48-50`) -/
  | born (b : ℕ)
  /-- a probe is added to list `i` (`lib/u_prblst.cc:195-198`) -/
  | add (i : ℕ) (p : Probe W) (grow : Bool)
  /-- the matching probes are removed from list `i` (`lib/u_prblst.cc:78-98`) -/
  | remove (i : ℕ) (q : Probe W → Bool)
  /-- list `i` is cleared (`lib/u_prblst.cc:56-59`) -/
  | clear (i : ℕ)
  /-- a node or device is destroyed (`CKT_BASE::~CKT_BASE`, `lib/e_base.cc:43-54`) -/
  | gone (b : ℕ)

/-- One operation.  `gone`: the destructor purges only if there are probes (`lib/e_base.cc:46-51`), then
asserts that there are none (`53`). -/
def step (o : Op W) (s : State W) : Option (State W) :=
  match o with
  | .born b => some ⟨s.lists, Function.update s.n b (some 0)⟩
  | .add i p grow => match s.lists[i]? with
    | none => some s
    | some l => (push grow p l s.n).map fun x => ⟨s.lists.set i x.1, x.2⟩
  | .remove i q => match s.lists[i]? with
    | none => some s
    | some l => (removeIf q l s.n).map fun x => ⟨s.lists.set i x.1, x.2⟩
  | .clear i => match s.lists[i]? with
    | none => some s
    | some l => (destroyAll l s.n).map fun n => ⟨s.lists.set i [], n⟩
  | .gone b => match s.n b with
    | none => none
    | some 0 => some ⟨s.lists, Function.update s.n b none⟩
    | some (_ + 1) => match purge b s.lists s.n with
      | none => none
      | some (ls, n) => if n b = some 0 then some ⟨ls, Function.update n b none⟩ else none

def run : List (Op W) → State W → Option (State W)
  | [], s => some s
  | o :: r, s => match step o s with
    | none => none
    | some s => run r s

end Gnucap.Probe
