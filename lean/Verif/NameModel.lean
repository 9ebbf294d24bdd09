import Verif.WmatchModel
import Verif.SimDataModel

/-!
# Names of parts: writing them, and finding parts by them (model)

`CARD::long_label` (e_card.cc:62-69), the search of the probe commands (`PROBELIST::add_branches`, u_prblst.cc:219-317), and
the search of `list`, `modify`, `fault` and `dc` (`findbranch`, findbr.cc:39-107).
A string is a list of characters.  A part is found again by its place: the positions in the lists, from the outside in.
-/
namespace Gnucap.Names
open Gnucap.Wmatch

abbrev Name := List Char

/-- A card as the searches see it: `short_label()`, `is_device()`, whether it has a `subckt()`, and of that the names in the
node map and the cards. -/
inductive Part where
  | mk (label : Name) (dev hasSub : Bool) (nodes : List Name) (parts : List Part)

namespace Part
def label : Part → Name | mk l _ _ _ _ => l
def dev : Part → Bool | mk _ d _ _ _ => d
def hasSub : Part → Bool | mk _ _ h _ _ => h
def nodes : Part → List Name | mk _ _ _ n _ => n
def parts : Part → List Part | mk _ _ _ _ p => p
end Part

/-- What a probe is put on: a node or a part, with its place. -/
inductive Obj where
  | node (path : List ℕ) (name : Name)
  | part (path : List ℕ)
  deriving DecidableEq

/-- `long_label` (e_card.cc:62-69) of the part at a place: the labels from the outside in, with dots between. -/
def longLabel : List Part → List ℕ → Option Name
  | _, [] => none
  | ps, [i] => (ps[i]?).map Part.label
  | ps, i :: j :: path =>
    match ps[i]? with
    | none => none
    | some p => (longLabel p.parts (j :: path)).map fun s => p.label ++ '.' :: s

/-- `find_first_of(".")` with the `substr` before and after (u_prblst.cc:230-234) -/
def cut : Name → Option (Name × Name)
  | [] => none
  | c :: s => if c = '.' then some ([], s) else (cut s).map fun r => (c :: r.1, r.2)

/-- `find_last_of(".")` with the `substr` before and after (u_prblst.cc:247-249, findbr.cc:54-66) -/
def cutLast (s : Name) : Option (Name × Name) := (cut s.reverse).map fun r => (r.2.reverse, r.1.reverse)

theorem cut_length {s : Name} {r : Name × Name} (h : cut s = some r) : r.1.length < s.length ∧ r.2.length < s.length := by
  induction s generalizing r with
  | nil => simp [cut] at h
  | cons c s ih =>
    rw [cut] at h
    by_cases hc : c = '.'
    · rw [if_pos hc] at h
      obtain rfl := Option.some.inj h
      simp
    · rw [if_neg hc] at h
      cases hs : cut s with
      | none => rw [hs] at h; simp at h
      | some q =>
        rw [hs] at h
        obtain rfl := Option.some.inj h
        have := ih hs
        simp only [List.length_cons]
        omega

theorem cutLast_length {s : Name} {r : Name × Name} (h : cutLast s = some r) : r.1.length < s.length ∧ r.2.length < s.length := by
  unfold cutLast at h
  cases hs : cut s.reverse with
  | none => rw [hs] at h; simp at h
  | some q =>
    rw [hs] at h
    obtain rfl := Option.some.inj h
    have := cut_length hs
    simp only [List.length_reverse] at this ⊢
    omega

/-- `find_first_of("*?") != npos` -/
def wild (s : Name) : Bool := s.any fun c => c = '*' || c = '?'

/-- `CKT_BASE::operator!=` (e_base.cc:172-179) -/
def same (ci : Bool) (a b : Name) : Bool := a.map (fixCase ci) = b.map (fixCase ci)

/-- `NODE_MAP::operator[]` (u_nodemap.cc:66-78) -/
def nodeFind (ci : Bool) (nodes : List Name) (s : Name) : Option Name :=
  if s ∈ nodes then some s
  else if ci && decide (Sim.toLower s ∈ nodes) then some (Sim.toLower s)
  else none

/-- The search without dots (u_prblst.cc:263-312) -/
def addHere (ci : Bool) (s : Name) (nodes : List Name) (parts : List Part) (path : List ℕ) : List Obj :=
  if wild s then
    ((nodes.filter fun n => decide (n ≠ ['0']) && wmatch ci n s).map fun n => .node path n) ++
    ((parts.zipIdx.filter fun p => wmatch ci p.1.label s).map fun p => .part (path ++ [p.2]))
  else
    (match nodeFind ci nodes s with
     | some n => [.node path n]
     | none => []) ++
    (match parts.findIdx? (fun p => same ci p.label s) with
     | some i => [.part (path ++ [i])]
     | none => [])

/-- `PROBELIST::add_branches` (u_prblst.cc:219-317): what is pushed, in order.  `nodes` is in the order of the map. -/
def addBranches (ci : Bool) (s : Name) (nodes : List Name) (parts : List Part) (path : List ℕ) : List Obj :=
  match _h : cut s, _h' : cutLast s with
  | some r, some q =>
    (parts.zipIdx.flatMap fun p =>
      if p.1.dev && p.1.hasSub && wmatch ci p.1.label r.1 then addBranches ci r.2 p.1.nodes p.1.parts (path ++ [p.2]) else []) ++
    (parts.zipIdx.flatMap fun p =>
      if p.1.dev && p.1.hasSub && wmatch ci p.1.label q.2 then addBranches ci q.1 p.1.nodes p.1.parts (path ++ [p.2]) else [])
  | _, _ => addHere ci s nodes parts path
  termination_by s.length
  decreasing_by
    · exact (cut_length _h).2
    · exact (cutLast_length _h').1

/-- `findbranch` (findbr.cc:39-107) from position `start` on: the place of the first match.  `gas` bounds the number of
dots. -/
def findBranch (ci : Bool) : ℕ → Name → List Part → ℕ → List ℕ → Option (List ℕ)
  | gas, s, parts, start, path =>
    let last := match cutLast s with | some r => r.2 | none => s
    let inner : Option Name := (cutLast s).map Prod.fst
    if s = [] then none
    else (parts.zipIdx.drop start).findSome? fun p =>
      if wmatch ci p.1.label last then
        match inner with
        | none => some (path ++ [p.2])
        | some l =>
          if p.1.hasSub then
            match gas with
            | 0 => none
            | gas + 1 => findBranch ci gas l p.1.parts 0 (path ++ [p.2])
          else none
      else none

/-- The list of parts at a place -/
def partsAt : List Part → List ℕ → List Part
  | ps, [] => ps
  | ps, i :: path =>
    match ps[i]? with
    | none => []
    | some p => partsAt p.parts path

/-- The loop of `modify` and `fault` (c_modify.cc:96-123): each match is followed by a search from the next position of the
list it was found in.  `n` bounds the number of matches. -/
def modifyHits (ci : Bool) (s : Name) (root : List Part) : ℕ → List ℕ → ℕ → List (List ℕ)
  | 0, _, _ => []
  | n + 1, path, start =>
    match findBranch ci s.length s (partsAt root path) start path with
    | none => []
    | some r => r :: modifyHits ci s root n r.dropLast (r.getLast?.getD 0 + 1)

/-- The outcome of `delete`: the list afterwards and whether something was deleted, or a call on a null pointer. -/
inductive Del where
  | done (parts : List Part) (did : Bool)
  | crash

def Del.map (f : List Part → List Part) : Del → Del
  | .done ps b => .done (f ps) b
  | .crash => .crash

/-- The container at position `i` (c_delete.cc:61-72): a device is refused; the rest is taken to have a list inside,
which `delete_one_name` is called on even if there is none (`assert(Scope)`). -/
def deleteIn (rec : List Part → Del) (parts : List Part) (i : ℕ) : Del :=
  match parts[i]? with
  | none => .done parts false
  | some p =>
    if p.dev then .done parts false
    else if p.hasSub then (rec p.parts).map fun l => parts.set i (.mk p.label p.dev p.hasSub p.nodes l)
    else .crash

/-- `CMD_DELETE::delete_one_name` (c_delete.cc:38-103).  `gas` bounds the number of dots. -/
def deleteOne (ci : Bool) : ℕ → Name → List Part → Del
  | gas, s, parts =>
    match cut s, cutLast s with
    | some r, some q =>
      match gas with
      | 0 => .done parts false
      | gas + 1 =>
        match parts.findIdx? (fun p => same ci p.label r.1) with
        | some i => deleteIn (deleteOne ci gas r.2) parts i
        | none =>
          match parts.findIdx? (fun p => same ci p.label q.2) with
          | some i => deleteIn (deleteOne ci gas q.1) parts i
          | none => .done parts false
    | _, _ =>
      if wild s then .done (parts.filter fun p => !wmatch ci p.label s) (parts.any fun p => wmatch ci p.label s)
      else
        match parts.findIdx? (fun p => same ci p.label s) with
        | some i => .done (parts.eraseIdx i) true
        | none => .done parts false

end Gnucap.Names
