import Mathlib.Algebra.Ring.Basic
import Mathlib.Algebra.BigOperators.Group.List.Basic
import Verif.LoadModel

/-!
# Multiplicity: how many of a component there are (model)

Every component has a factor of its own (`$mfactor`, 1 when not given).  What is loaded is multiplied by `_mfactor_fixed`, the product
of the factors of the component and everything that contains it.  Here: when `_mfactor_fixed` is computed (e_compon.cc, d_subckt.cc,
the devices written by modelgen), and how the parameters of a line reach `$mfactor` and the others (e_compon.cc, e_elemnt.cc,
lang_verilog.cc:197-213, lang_spice.cc:429-439).

The value of a factor is a function of the parameters in force (`P`, any type); evaluating expressions is in ParamModel.
-/
namespace Gnucap.Mult

/-! ## the factors -/

/-- A component as it is in a netlist or in a prototype, with what `expand` makes inside of it.  `pass` says whether its
`precalc_first` goes on to what is inside: yes for subcircuits (d_subckt.cc:253-265) and logic devices (d_logic.cc:64), no for
the devices made by modelgen, which have `BASE_SUBCKT`'s, that is `COMPONENT`'s (e_subckt.h:47 is a comment; mg_out_dev.cc writes
no `precalc_first`). -/
inductive Proto (P F : Type _) where
  | mk (pass : Bool) (own : Option (P → F)) (inner : List (Proto P F))

/-- A component in use.  `fixed` is `_mfactor_fixed`, `none` for `NOT_VALID`. -/
inductive Inst (P F : Type _) where
  | mk (pass : Bool) (own : Option (P → F)) (fixed : Option F) (inner : List (Inst P F))

variable {P F : Type _}

def Inst.pass : Inst P F → Bool | .mk b _ _ _ => b
def Inst.own : Inst P F → Option (P → F) | .mk _ o _ _ => o
def Inst.fixed : Inst P F → Option F | .mk _ _ f _ => f
def Inst.inner : Inst P F → List (Inst P F) | .mk _ _ _ l => l
def Proto.pass : Proto P F → Bool | .mk b _ _ => b
def Proto.own : Proto P F → Option (P → F) | .mk _ o _ => o
def Proto.inner : Proto P F → List (Proto P F) | .mk _ _ l => l

variable [Ring F]

/-- `my_mfactor` (e_compon.cc:718-725) behind `HS_PARAM::precalc` (387-392): 1 when nothing is given -/
def mine (p : P) : Option (P → F) → F
  | none => 1
  | some f => f p

/-- The end of `COMPONENT::precalc_first` (e_compon.cc:576-581).  `o` is the owner's `_mfactor_fixed`, outer `none` for no owner.
A product with `NOT_VALID` is not valid. -/
def fix (o : Option (Option F)) (m : F) : Option F :=
  match o with
  | none => some m
  | some x => x.map (· * m)

mutual
/-- `precalc_first` of a component (e_compon.cc:556-583, d_subckt.cc:253-265, d_logic.cc:64) -/
def precalc (p : P) (o : Option (Option F)) : Inst P F → Inst P F
  | .mk pass own _ inner =>
    .mk pass own (fix o (mine p own)) (if pass then precalcAll p (some (fix o (mine p own))) inner else inner)
/-- `CARD_LIST::precalc_first` (e_cardlist.cc:187-194) -/
def precalcAll (p : P) (o : Option (Option F)) : List (Inst P F) → List (Inst P F)
  | [] => []
  | c :: l => precalc p o c :: precalcAll p o l
end

mutual
/-- A component of the list in `CARD_LIST::expand` (e_cardlist.cc:166-185): its `precalc_first`, when there is nothing inside yet, then
its `expand`, which puts fresh copies of the cards of the prototype (d_subckt.cc:249) or the elements of the device
(mg_out_dev.cc:331-337) inside and expands these (d_subckt.cc:250, mg_out_dev.cc:343).  A copy has the `_mfactor_fixed` of the
prototype, `NOT_VALID` (e_compon.cc:416, d_subckt.cc:108), until its own `precalc_first`.  In the code `precalc_first` is called for
the whole list before `expand` is called for any; it uses nothing but the owner. -/
def expand (p : P) (o : Option (Option F)) : Proto P F → Inst P F
  | .mk pass own inner =>
    .mk pass own (fix o (mine p own)) (expandAll p (some (fix o (mine p own))) inner)
def expandAll (p : P) (o : Option (Option F)) : List (Proto P F) → List (Inst P F)
  | [] => []
  | c :: l => expand p o c :: expandAll p o l
end

/-- What happens to the factors after the first expansion. -/
inductive Op (P : Type _) where
  /-- a command that starts an analysis with the parameters `p`: `SIM_DATA::init` (u_sim_data.cc:281-283) -/
  | analysis (p : P)
  /-- a point of a DC sweep with the parameters `p`: `DCOP::precalc` (s_dc.cc:467-483) calls `precalc_last` only -/
  | point (p : P)

/-- one of these, for the circuit; `precalc_last` (e_compon.cc:586-, e_elemnt.cc:171-175, mg_out_dev.cc:355-368) writes neither
`_mfactor_fixed` nor the system parameters -/
def step (s : List (Inst P F)) : Op P → List (Inst P F)
  | .analysis p => precalcAll p none s
  | .point _ => s

/-- The first analysis (u_sim_data.cc:269-280), then others. -/
def history (p0 : P) (ps : List (Proto P F)) (ops : List (Op P)) : List (Inst P F) :=
  ops.foldl step (expandAll p0 none ps)

/-! ## which parameter is meant: by order, and `m` -/

/-- What a value is stored in. -/
inductive Target where
  /-- the value of an element (`_value`) -/
  | value
  /-- a system parameter, 0 is `$mfactor` (e_compon.cc:689-716) -/
  | sys (n : ℕ)
  /-- a parameter of the device, counted in the order they are declared -/
  | own (n : ℕ)
  /-- `tnom`, `dtemp`, `temp` (e_compon.cc:222-230) -/
  | base (n : ℕ)
  /-- an exception, "too many" or "no match", with a message -/
  | refused
  /-- nothing is stored and nothing is said (e_compon.cc:752) -/
  | lost
  /-- outside of the array of system parameters -/
  | ub
deriving DecidableEq, Repr

/-- A common: how many parameters it has besides the three of `COMMON_COMPONENT`, whether it has a `set_param_by_index` of its own
(those made by modelgen, mg_out_common.cc:132-166, `COMMON_TRANSLINE`, `COMMON_LOGIC`; not `COMMON_PARAMLIST`, `COMMON_SWITCH`),
and which parameter a name is taken for (`none`: `Exception_No_Match`); `COMMON_PARAMLIST` takes every name (e_paramlist.h:42). -/
structure Com where
  own : ℕ
  byIndex : Bool
  named : List Char → Option ℕ

/-- A component: whether it is an `ELEMENT`, and its common. -/
structure Dev where
  elem : Bool
  com : Option Com

/-- `param_count` of a common (e_compon.h:105, mg_out_h.cc:178-180, e_paramlist.h:47-48, e_logic.h:49) -/
def Com.count (c : Com) : ℤ := c.own + 3

/-- `COMPONENT::param_count` (e_compon.h:266-272) -/
def Dev.compCount (d : Dev) : ℤ := match d.com with
  | some c => 8 + c.count
  | none => 8

/-- `param_count` (e_elemnt.h:158-165, e_compon.h:266-272) -/
def Dev.count (d : Dev) : ℤ :=
  if d.elem && d.com.isNone then 1 + d.compCount else d.compCount

/-- `set_param_by_index` of a common (mg_out_common.cc:132-166, e_logic.cc:41-47, e_compon.cc:222-230) -/
def Com.set (c : Com) (i : ℤ) : Target :=
  if c.byIndex = true ∧ 0 ≤ c.count - 1 - i ∧ c.count - 1 - i < c.own then .own (c.count - 1 - i).toNat
  else if 0 ≤ i ∧ i ≤ 2 then .base i.toNat
  else .refused

/-- `COMPONENT::set_param_by_index` (e_compon.cc:746-762) -/
def Dev.compSet (d : Dev) (i : ℤ) : Target :=
  let n := d.compCount - 1 - i
  if n < 8 then (if 0 ≤ n then .sys n.toNat else .ub)
  else match d.com with
    | none => .lost
    | some c => c.set i

/-- `set_param_by_index`: `ELEMENT`'s (e_elemnt.cc:92-107) or `COMPONENT`'s -/
def Dev.set (d : Dev) (i : ℤ) : Target :=
  if d.elem then
    match d.com with
    | some c => c.set i
    | none => if d.count - 1 - i = 0 then .value else d.compSet i
  else d.compSet i

/-- The `by order` loop of `LANG_VERILOG::parse_args_instance` (lang_verilog.cc:197-213) for `n` arguments: where each goes. -/
def byOrder (d : Dev) (n : ℕ) : List Target :=
  (List.range n).map fun j : ℕ => d.set (d.count - 1 - (j : ℤ))

/-- The names of the system parameters as `set_hsparam` reads them (e_compon.cc:689-716). -/
def sysNames : List (List Char) :=
  [['$','m','f','a','c','t','o','r'], ['$','x','p','o','s','i','t','i','o','n'], ['$','y','p','o','s','i','t','i','o','n'],
   ['$','z','p','o','s','i','t','i','o','n'], ['$','h','f','l','i','p'], ['$','v','f','l','i','p'], ['$','b','f','l','i','p'],
   ['$','a','n','g','l','e']]

/-- `COMPONENT::set_param_by_name` of a component with a common (e_compon.cc:727-744): the system names first, then the common. -/
def setByName (c : Com) (name : List Char) : Target :=
  if name ∈ sysNames then .sys (sysNames.idxOf name)
  else match c.named name with
    | some k => .own k
    | none => .refused

/-- A `name=value` of a SPICE line (lang_spice.cc:429-439) for a component with a common. -/
def spiceParam (c : Com) (name : List Char) : Target :=
  if name = ['$','m','f','a','c','t','o','r'] then setByName c name
  else if name = ['m'] then
    match setByName c name with
    | .refused => setByName c ['$','m','f','a','c','t','o','r']
    | t => t
  else setByName c name

end Gnucap.Mult
