import Mathlib.Algebra.Field.Basic
import Mathlib.Analysis.SpecialFunctions.Pow.Real

/-!
# Changing values for a while: `fault`, `unfault`, `modify`, `sweep` (model)

apps/c_modify.cc, apps/c_sweep.cc, include/u_cardst.h, with the part of the expansion of subcircuits that frees and makes cards
(e_card.cc:204-219).  Cards are numbered by identity, as pointers are.
-/
namespace Gnucap.Fault

/-- what `fault` and `modify` change of an `ELEMENT` (e_elemnt.h:177, e_compon.h:219-222): `_value`, `_common` -/
structure El (V C : Type) where
  value : V
  common : Option C
deriving DecidableEq

/-- what kind of card a name leads to: an `ELEMENT`, another device with or without `subckt()`, or not a device -/
inductive Card (V C : Type) where
  | elem (e : El V C)
  | compound (expanded : Bool)
  | other
deriving DecidableEq

/-- A subcircuit instance: the cards of its definition and those made from them, both by number -/
structure Inst where
  tmpl : List ℕ
  parts : List ℕ
deriving DecidableEq

/-- All cards (`none`: freed or never made), the number the next one gets, the instances, `faultstack` (last first),
whether the circuit is expanded (`!is_first_expand()`, u_sim_data.h:105) -/
structure St (V C : Type) where
  heap : ℕ → Option (Card V C)
  next : ℕ
  insts : List Inst
  stack : List (ℕ × El V C)
  expanded : Bool

/-- the state, or a use of memory that is not (any more) what it is taken for -/
inductive Res (α : Type) where
  | ok (a : α)
  | undefined
deriving DecidableEq

def Res.bind {α β : Type} : Res α → (α → Res β) → Res β
  | .ok a, f => f a
  | .undefined, _ => .undefined

variable {V C : Type}

def put (h : ℕ → Option (Card V C)) (i : ℕ) (c : Option (Card V C)) : ℕ → Option (Card V C) := fun j => if j = i then c else h j

/-- `_sim->uninit()` (u_sim_data.cc:357-375) -/
def St.uninit (s : St V C) : St V C := { s with expanded := false }

/-- `modify` of one card (c_modify.cc:108-113): `static_cast<ELEMENT*>`, then `set_value(v, 0)` (e_elemnt.cc:72-80) -/
def St.modify (i : ℕ) (v : V) (s : St V C) : Res (St V C) :=
  match s.heap i with
  | none => .ok s.uninit                    -- not found
  | some (.elem _) => .ok { s.uninit with heap := put s.heap i (some (.elem ⟨v, none⟩)) }
  | some _ => .undefined

/-- `faultbranch` (c_modify.cc:40-55), `CARDSTASH::operator=` (u_cardst.h:58-66) -/
def St.fault (i : ℕ) (v : V) (s : St V C) : Res (St V C) :=
  match s.heap i with
  | none => .ok s.uninit
  | some .other => .ok s.uninit             -- not a device, warning
  | some (.compound true) => .ok s.uninit   -- has subckt, warning
  | some (.compound false) => .undefined    -- CARDSTASH takes it for an ELEMENT
  | some (.elem e) => .ok { s.uninit with heap := put s.heap i (some (.elem ⟨v, none⟩)), stack := (i, e) :: s.stack }

/-- `CMD_UNFAULT` (c_modify.cc:155-163), `CARDSTASH::restore` (u_cardst.h:40-44) -/
def unfaultFrom (h : ℕ → Option (Card V C)) : List (ℕ × El V C) → Res (ℕ → Option (Card V C))
  | [] => .ok h
  | (i, e) :: l =>
    match h i with
    | some (.elem _) => unfaultFrom (put h i (some (.elem e))) l
    | _ => .undefined

def St.unfault (s : St V C) : Res (St V C) :=
  (unfaultFrom s.heap s.stack).bind fun h => .ok { s.uninit with heap := h, stack := [] }

/-- `delete` of one card (e_cardlist.cc:102-112); the cards inside an instance go with it, which is not needed here -/
def St.delete (i : ℕ) (s : St V C) : Res (St V C) := .ok { s with heap := put s.heap i none }

/-- making the parts: numbers, heap -/
def clones (n : ℕ) (h : ℕ → Option (Card V C)) : List ℕ → ℕ × (ℕ → Option (Card V C)) × List ℕ
  | [] => (n, h, [])
  | t :: l => let r := clones (n + 1) (put h n (h t)) l; (r.1, r.2.1, n :: r.2.2)

/-- `renew_subckt` on the first expansion: `delete _subckt`, `new CARD_LIST(Model, ...)` (e_card.cc:204-219) -/
def renew (s : St V C) (x : Inst) : St V C :=
  let h := x.parts.foldl (fun h p => put h p none) s.heap
  let r := clones s.next h x.tmpl
  { s with heap := r.2.1, next := r.1, insts := s.insts ++ [⟨x.tmpl, r.2.2⟩] }

/-- an analysis: `SIM_DATA::init` (u_sim_data.cc:267-284) -/
def St.run (s : St V C) : St V C :=
  if s.expanded then s else { s.insts.foldl renew { s with insts := [] } with expanded := true }

/-- the commands -/
inductive Op (V : Type) where
  | fault (i : ℕ) (v : V)
  | modify (i : ℕ) (v : V)
  | unfault
  | delete (i : ℕ)
  | run

def St.op (s : St V C) : Op V → Res (St V C)
  | .fault i v => s.fault i v
  | .modify i v => s.modify i v
  | .unfault => s.unfault
  | .delete i => s.delete i
  | .run => .ok s.run

def St.ops (s : St V C) : List (Op V) → Res (St V C)
  | [] => .ok s
  | o :: l => (s.op o).bind fun s => s.ops l

/-! ## sweep -/

/-- `swp_steps` from the number given (c_sweep.cc:37-41) -/
def steps (n : ℕ) : ℕ := if n ≠ 0 then n - 1 else 0

/-- `sweep_fix`, linear (c_modify.cc:61-90); `last` is there if a second number is given -/
def sweepLin {F : Type} [Field F] (steps count : ℕ) (start : F) (last : Option F) : F :=
  if steps ≠ 0 then
    match last with
    | some last => start + (last - start) * ((count : F) / (steps : F))
    | none => start
  else start

/-- `sweep_fix`, log (c_modify.cc:70-79); `none` is the exception -/
noncomputable def sweepLog (steps count : ℕ) (start : ℝ) (last : Option ℝ) : Option ℝ :=
  if steps ≠ 0 then
    match last with
    | some last => if start = 0 then none else some (start * (last / start) ^ ((count : ℝ) / (steps : ℝ)))
    | none => some start
  else some start

/-- `doit`, then `unfault` (c_sweep.cc:81-132, 141-142): each time what is on the line of the command, as `fault`, then the other
commands.  `line k` are the cards named and the values for count `k`. -/
def sweep (n : ℕ) (line : ℕ → List (ℕ × V)) (cmds : List (Op V)) : List (Op V) :=
  ((List.range (steps n + 1)).flatMap fun k => (line k).map (fun p => .fault p.1 p.2) ++ cmds) ++ [.unfault]

/-- the line of the command made into a fault command (c_sweep.cc:105-107): `strncpy` of "fault" and 30 blanks over the first `ind`
characters, then a blank at `ind - 1`; what a reader of the C string sees ends at a NUL -/
def faultLine (ind : ℕ) (buffer : List Char) : List Char :=
  let src := "fault".toList ++ List.replicate 30 ' '
  let b := (src.take ind ++ List.replicate (ind - src.length) '\x00') ++ buffer.drop ind
  (b.set (ind - 1) ' ').takeWhile (· ≠ '\x00')

end Gnucap.Fault
