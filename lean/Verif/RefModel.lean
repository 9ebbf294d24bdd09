import Mathlib.Algebra.BigOperators.Group.Finset.Basic
import Mathlib.Data.Finset.Range
import Mathlib.Logic.Relation

/-!
# Shared objects and their counts

`COMMON_COMPONENT` (the data shared by components) and `ATTRIB_LIST` (the attributes of cards).  Objects
live in a heap; a slot is a pointer that takes part in the counting: the `_common` of a component, the
`_c` of a stash, the `_func` of a conditional or of a model reference (which is itself a shared object).

`none` as a result is undefined behaviour: a released object is touched, or an `assert` on a count fails.

Simplifications: an object is removed from the heap before its own slots are cleared (the destructor does
it in the other order; nothing reads it in between), and a slot is emptied before the object it pointed at
is released (`detach_common` does it after; `detach_parent_survives` shows that the slot still exists).
-/
namespace Gnucap.Ref

/-- `CC_STATIC` (`include/e_compon.h:56`) -/
def ccStatic : ℕ := 27342

/-- A shared object: `_attach_count` (`include/e_compon.h:69`), what `operator==` looks at, the slots
within the object (`_func` of `lib/bm_cond.cc:37` and `apps/bm_model.cc:35`, `_up` of
`include/u_attrib.h:36`), and whether it was made with `CC_STATIC`. -/
structure Cell (V : Type) where
  count : ℕ
  val : V
  kids : List (Option ℕ)
  static : Bool

/-- The objects, the first unused address, and the slots outside of shared objects. -/
structure Heap (V : Type) where
  cell : ℕ → Option (Cell V)
  next : ℕ
  roots : List (Option ℕ)

/-- A slot: outside of the objects, or slot `i` of the object `p`. -/
inductive Loc where
  | root (i : ℕ)
  | kid (p i : ℕ)
deriving DecidableEq

variable {V : Type}

/-- The pointer in a slot. -/
def Heap.get (h : Heap V) : Loc → Option ℕ
  | .root i => (h.roots[i]?).join
  | .kid p i => ((h.cell p).bind fun c => c.kids[i]?).join

/-- Write one object. -/
def Heap.put (h : Heap V) (x : ℕ) (c : Option (Cell V)) : Heap V := { h with cell := Function.update h.cell x c }

/-- Write a pointer to a slot. -/
def Heap.set (h : Heap V) (l : Loc) (v : Option ℕ) : Heap V :=
  match l with
  | .root i => { h with roots := h.roots.set i v }
  | .kid p i => match h.cell p with
    | none => h
    | some c => h.put p (some { c with kids := c.kids.set i v })

/-- number of slots in the object `p` -/
def Heap.slots (h : Heap V) (p : ℕ) : ℕ := match h.cell p with
  | none => 0
  | some c => c.kids.length

/-- number of slots in all objects -/
def Heap.size (h : Heap V) : ℕ := ∑ p ∈ Finset.range h.next, h.slots p

/-- Give back the references in a list: count down, and release at zero (`detach_common`,
`lib/e_compon.cc:91-107`, with the destructors `lib/bm_cond.cc:83-88`, `apps/bm_model.cc:39`, the assert
`lib/e_compon.cc:56`; `include/u_attrib.h:50-61`).  The number bounds the steps. -/
def release : ℕ → List (Option ℕ) → Heap V → Option (Heap V)
  | _, [], h => some h
  | 0, _ :: _, _ => none
  | n + 1, none :: r, h => release n r h
  | n + 1, some x :: r, h => match h.cell x with
    | none => none
    | some c =>
      if c.count = 0 then none
      else if c.count = 1 then release n (c.kids ++ r) (h.put x none)
      else release n r (h.put x (some { c with count := c.count - 1 }))

/-- `detach_common(&slot)` (`lib/e_compon.cc:91-107`) -/
def detach (l : Loc) (h : Heap V) : Option (Heap V) :=
  match h.get l with
  | none => some h
  | some x => release (1 + (h.set l none).size) [some x] (h.set l none)

/-- `++(c->_attach_count)` (`lib/e_compon.cc:69`, `75`) -/
def incr (y : ℕ) (h : Heap V) : Option (Heap V) :=
  match h.cell y with
  | none => none
  | some c => some (h.put y (some { c with count := c.count + 1 }))

/-- `delete c` (`lib/e_compon.cc:83`, with the assert of the destructor `53-57`) -/
def destroy (y : ℕ) (h : Heap V) : Option (Heap V) :=
  match h.cell y with
  | none => none
  | some c => if c.count ≠ 0 then none else release h.size c.kids (h.put y none)

/-- `attach_common(c, &slot)` (`lib/e_compon.cc:59-89`); `same` is `operator==` -/
def attach (same : V → V → Bool) (l : Loc) (c : Option ℕ) (h : Heap V) : Option (Heap V) :=
  if c = h.get l then some h
  else match c with
  | none => detach l h
  | some y => match h.get l with
    | none => (incr y h).map fun h => h.set l (some y)
    | some x => match h.cell y, h.cell x with
      | some cy, some cx =>
        if same cy.val cx.val = false then
          ((detach l h).bind (incr y)).map fun h => h.set l (some y)
        else if cy.count = 0 then destroy y h
        else some h
      | _, _ => none

/-- Attach to a list of empty slots of a new object: the counts go up. -/
def incrAll : List (Option ℕ) → Heap V → Option (Heap V)
  | [], h => some h
  | none :: r, h => incrAll r h
  | some y :: r, h => (incr y h).bind (incrAll r)

/-- A new object, count 0 (`lib/e_compon.cc:29-51`); its slots are attached to what the slots of the
original are attached to (`lib/bm_cond.cc:73-81`, `apps/bm_model.cc:61-67`). -/
def create (v : V) (kids : List (Option ℕ)) (h : Heap V) : Option (Heap V) :=
  (incrAll kids h).map fun h => { h.put h.next (some ⟨0, v, kids, false⟩) with next := h.next + 1 }

/-- The operations a program can make. -/
inductive Op (V : Type) where
  /-- `new`, or `clone()` of an object with these slots -/
  | create (v : V) (kids : List (Option ℕ))
  /-- a new component or stash: its slot is empty -/
  | newSlot
  | attach (l : Loc) (c : Option ℕ)
  | detach (l : Loc)
  /-- `delete` -/
  | delete (y : ℕ)
  /-- a change in place, as `mutable_common()->set_param_by_name` -/
  | setVal (y : ℕ) (v : V)

def step (same : V → V → Bool) (o : Op V) (h : Heap V) : Option (Heap V) :=
  match o with
  | .create v kids => create v kids h
  | .newSlot => some { h with roots := h.roots ++ [none] }
  | .attach l c => attach same l c h
  | .detach l => detach l h
  | .delete y => destroy y h
  | .setVal y v => match h.cell y with
    | none => none
    | some c => some (h.put y (some { c with val := v }))

def run (same : V → V → Bool) : List (Op V) → Heap V → Option (Heap V)
  | [], h => some h
  | o :: r, h => (step same o h).bind (run same r)

/-! ## attributes -/

/-- `ATTRIB_LIST_p::operator=` (`include/u_attrib.h:157-173`), `P` being the slot `r` -/
def assignAttr (l r : Loc) (h : Heap V) : Option (Heap V) :=
  match h.get l with
  | none => match h.get r with
    | none => some (h.set l none)
    | some y => (incr y h).map fun h => h.set l (some y)
  | some x => match h.cell x with
    | none => none
    | some c =>
      -- with a count above 1 the slot is not emptied, `assert(!_p)` fails
      if c.count = 1 then
        (detach l h).bind fun h => match h.get r with
          | none => some h
          | some y => (incr y h).map fun h => h.set l (some y)
      else none

/-- `ATTRIB_LIST_p::add_to` (`include/u_attrib.h:175-190`, constructor `42-48`) for a string that is not
empty: the count of the old one goes down, the new one is made on top of it and counts it up again. -/
def addTo (v : V) (l : Loc) (h : Heap V) : Option (Heap V) :=
  match h.get l with
  | none => (create v [none] h).map fun h' => (h'.put h.next (some ⟨1, v, [none], false⟩)).set l (some h.next)
  | some x => match h.cell x with
    | none => none
    | some c => if c.count = 0 then none else
      (create v [some x] (h.put x (some { c with count := c.count - 1 }))).map fun h' =>
        (h'.put h.next (some ⟨1, v, [some x], false⟩)).set l (some h.next)

end Gnucap.Ref
