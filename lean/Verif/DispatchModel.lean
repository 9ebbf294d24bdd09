import Mathlib.Data.Nat.Find
import Mathlib.Data.List.Nodup
import Mathlib.Data.List.Perm.Subperm
import Verif.SimDataModel

/-!
# The plugin registry (model of l_dispatcher.cc, l_dispatcher.h)

`std::map<std::string, CKT_BASE*>` is an association list; looking a name up with `operator[]` inserts a null entry when there is
none, which is kept here (`none`).  The cast of the result to the type of the dispatcher is not modelled.
-/
namespace Gnucap.Dispatch

variable {P : Type _} [DecidableEq P]

abbrev Name := List Char

/-- `std::map<std::string, CKT_BASE*>` -/
abbrev Map (P : Type _) := List (Name × Option P)

/-- the value under a key, null if there is none -/
def find : Map P → Name → Option P
  | [], _ => none
  | (k, v) :: m, n => if k = n then v else find m n

/-- `(*_map)[n] = v` -/
def put : Map P → Name → Option P → Map P
  | [], n, v => [(n, v)]
  | (k, w) :: m, n, v => if k = n then (k, v) :: m else (k, w) :: put m n v

/-- reading `(*_map)[n]`: creates the entry -/
def touch (m : Map P) (n : Name) : Map P := put m n (find m n)

/-- `name + ":" + to_string(ii)` -/
def stash (n : Name) (i : ℕ) : Name := n ++ ':' :: Nat.toDigits 10 i

omit [DecidableEq P] in
theorem find_mem (m : Map P) (n : Name) (h : find m n ≠ none) : n ∈ m.map Prod.fst := by
  induction m with
  | nil => simp [find] at h
  | cons e m ih =>
    obtain ⟨k, v⟩ := e
    simp only [find] at h
    simp only [List.map_cons, List.mem_cons]
    split at h
    · left; rename_i hk; exact hk.symm
    · right; exact ih h

theorem stash_injective (n : Name) : Function.Injective (stash n) := by
  intro i j h
  have h1 := List.append_cancel_left h
  have h2 : Nat.toDigits 10 i = Nat.toDigits 10 j := by simpa using h1
  have := congrArg (Nat.ofDigitChars 10 · 0) h2
  simpa [Nat.ofDigitChars_toDigits] using this

omit [DecidableEq P] in
/-- the search for a free stash name ends -/
theorem stash_free (m : Map P) (n : Name) : ∃ i, find m (stash n i) = none := by
  by_contra hc
  push Not at hc
  have hsub : ∀ k, ((List.range k).map (stash n)).length ≤ (m.map Prod.fst).length := by
    intro k
    have hnd : ((List.range k).map (stash n)).Nodup := List.Nodup.map (stash_injective n) List.nodup_range
    exact (hnd.subperm (fun x hx => by
      obtain ⟨i, _, rfl⟩ := List.mem_map.mp hx
      exact find_mem m _ (hc i))).length_le
  have := hsub ((m.map Prod.fst).length + 1)
  simp at this

/-- the loop of l_dispatcher.cc:97-100: the first number whose name is free (the name with 0 is looked at twice) -/
def freeIndex (m : Map P) (n : Name) : ℕ := Nat.find (stash_free m n)

/-- the body of the loop over the keys (l_dispatcher.cc:90-105) for one name.  The null entries made by the search are left out
(they are keys `name:0` to the one taken; all but the last are there already). -/
def install1 (p : P) (m : Map P) (name : Name) : Map P :=
  if name = [] then put m name (some p)                               -- "quietly ignore", then 105
  else if find m name ≠ none then
    put (put m (stash name (freeIndex m name)) (find m name)) name (some p)
  else put m name (some p)

/-- the keys of `install` (l_dispatcher.cc:84-89): split at the bars -/
def keys : List Char → List Name
  | [] => [[]]
  | c :: s =>
    if c = '|' then [] :: keys s
    else match keys s with
      | [] => [[c]]
      | k :: ks => (c :: k) :: ks

/-- `DISPATCHER_BASE::install` (l_dispatcher.cc:78-107) -/
def install (s : List Char) (p : P) (m : Map P) : Map P := (keys s).foldl (install1 p) m

/-- `DISPATCHER_BASE::uninstall` (l_dispatcher.cc:49-68) -/
def uninstall (p : P) (m : Map P) : Map P := m.map (fun e => if e.2 = some p then (e.1, none) else e)

/-- `DISPATCHER_BASE::operator[]` (l_dispatcher.cc:33-47), `DISPATCHER<TT>::operator[](std::string)` (l_dispatcher.h:83-94) -/
def lookup (ci : Bool) (s : Name) (m : Map P) : Map P × Option P :=
  let m1 := touch m s
  match find m s with
  | some p => (m1, some p)
  | none =>
    if ci then (touch m1 (Gnucap.Sim.toLower s), find m1 (Gnucap.Sim.toLower s))
    else (m1, none)

/-- what happens to a registry -/
inductive Op (P : Type _) where
  | install (s : List Char) (p : P)
  | uninstall (p : P)
  | lookup (ci : Bool) (s : Name)

def step (m : Map P) : Op P → Map P
  | .install s p => install s p m
  | .uninstall p => uninstall p m
  | .lookup ci s => (lookup ci s m).1

def run (ops : List (Op P)) (m : Map P) : Map P := ops.foldl step m

end Gnucap.Dispatch
