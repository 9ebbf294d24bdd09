import Mathlib.Algebra.Order.Field.Basic
import Verif.Util

/-!
# Node names, node ordering, voltage limits, kept operating point (model)
-/
namespace Gnucap.Sim

/-! ## NODE_MAP -/

/-- `notstd::to_lower` (include/l_stlextra.h:51-56), ASCII letters only. -/
def toLower (s : List Char) : List Char := s.map Char.toLower

/-- `std::map<const std::string, NODE*>` (u_nodemap.h:33) reduced to name ↦ `NODE::_user_number`.
`find`: the first entry with that key; entries are only ever appended under keys that are not present, so there is one. -/
abbrev NodeMap := List (List Char × ℕ)

/-- `_node_map.find(s)` -/
def find (m : NodeMap) (s : List Char) : Option ℕ := (m.find? (fun e => decide (e.1 = s))).map Prod.snd

/-- `NODE_MAP::NODE_MAP()` (u_nodemap.cc:32-36): `_node_map["0"] = &ground_node`; ground has number 0. -/
def nmInit : NodeMap := [(['0'], 0)]

/-- `NODE_MAP::how_many()` (u_nodemap.h:49): `_node_map.size()-1` -/
def howMany (m : NodeMap) : ℕ := m.length - 1

/-- `NODE_MAP::operator[]` (u_nodemap.cc:66-78); `ci` is `OPT::case_insensitive`. -/
def lookup (ci : Bool) (m : NodeMap) (s : List Char) : Option ℕ :=
  match find m s with
  | some k => some k
  | none => if ci then find m (toLower s) else none

/-- `NODE_MAP::new_node` (u_nodemap.cc:83-99).  `_node_map[s]` inserts an empty entry when `s` is new, so `how_many()` is
evaluated with the entry already counted. -/
def newNode (ci : Bool) (m : NodeMap) (s0 : List Char) : NodeMap × ℕ :=
  let s := if ci then toLower s0 else s0
  match find m s with
  | some k => (m, k)
  | none =>
    let m1 := m ++ [(s, 0)]                  -- the entry inserted by operator[]
    let k := howMany m1
    (m ++ [(s, k)], k)

/-- A call on the map; the option may differ from call to call. -/
inductive NmOp where
  | new (ci : Bool) (s : List Char)
  | look (ci : Bool) (s : List Char)

/-- Effect and answer of a call. -/
def nmStep (m : NodeMap) : NmOp → NodeMap × Option ℕ
  | .new ci s => let r := newNode ci m s; (r.1, some r.2)
  | .look ci s => (m, lookup ci m s)

/-- The map after a sequence of calls. -/
def nmRun : NodeMap → List NmOp → NodeMap
  | m, [] => m
  | m, op :: ops => nmRun (nmStep m op).1 ops

/-! ## Node ordering -/

/-- `OPT::order` (u_opt.h); anything else is reported and treated as automatic (u_sim_data.cc:216-219). -/
inductive Order where
  | auto | reverse | forward | invalid

/-- one assignment to an array -/
def upd {α : Type _} (f : ℕ → α) (i : ℕ) (v : α) : ℕ → α := fun j => if j = i then v else f j

/-- `order_reverse` (u_sim_data.cc:229-235); `nm` is the freshly allocated array, contents arbitrary. -/
def orderReverse (n : ℕ) (nm : ℕ → ℕ) : ℕ → ℕ :=
  forRange 1 (n + 1) (fun node nm => upd nm node (n - node + 1)) (upd nm 0 0)

/-- `order_forward` (u_sim_data.cc:240-246) -/
def orderForward (n : ℕ) (nm : ℕ → ℕ) : ℕ → ℕ :=
  forRange 1 (n + 1) (fun node nm => upd nm node node) (upd nm 0 0)

/-- `order_auto` (u_sim_data.cc:251-257) -/
def orderAuto (n : ℕ) (nm : ℕ → ℕ) : ℕ → ℕ :=
  forRange 1 (n + 1) (fun node nm => upd nm node (n - node + 1)) (upd nm 0 0)

/-- `SIM_DATA::map__nodes` (u_sim_data.cc:211-224) -/
def mapNodes (o : Order) (n : ℕ) (nm : ℕ → ℕ) : ℕ → ℕ :=
  match o with
  | .auto => orderAuto n nm
  | .reverse => orderReverse n nm
  | .forward => orderForward n nm
  | .invalid => orderAuto n nm

/-- the loop of `alloc_hold_vectors` (u_sim_data.cc:299-301): `_nstat[_nm[ii]].set_user_number(ii)` -/
def allocHold (n : ℕ) (nm : ℕ → ℕ) (un : ℕ → ℕ) : ℕ → ℕ :=
  forRange 0 (n + 1) (fun ii un => upd un (nm ii) ii) un

/-! ## Voltage limits, kept voltages -/

/-- The members of SIM_DATA involved (u_sim_data.h). -/
structure V (F : Type _) where
  n : ℕ               -- _total_nodes
  v0 : ℕ → F
  vt1 : ℕ → F
  vdc : ℕ → F
  i : ℕ → F
  vmax : F
  vmin : F
  freeze : Bool       -- _freezetime
  time0 : F
  lastTime : F

variable {F : Type _} [Field F] [LinearOrder F]

/-- `SIM_DATA::set_limit(double)` (u_sim_data.cc:162-172) -/
def setLimit1 (v : F) (s : V F) : V F :=
  let s1 := if s.vmax < v + 2/5 then { s with vmax := v + 1/2 } else s
  if v - 2/5 < s1.vmin then { s1 with vmin := v - 1/2 } else s1

/-- `SIM_DATA::set_limit()` (u_sim_data.cc:155-160) -/
def setLimit (s : V F) : V F := forRange 1 (s.n + 1) (fun ii t => setLimit1 (t.v0 ii) t) s

/-- `SIM_DATA::clear_limit` (u_sim_data.cc:174-178) -/
def clearLimit (optVmax optVmin : F) (s : V F) : V F := { s with vmax := optVmax, vmin := optVmin }

/-- `SIM_DATA::keep_voltages` (u_sim_data.cc:180-190) -/
def keepVoltages (s : V F) : V F :=
  if s.freeze = false then
    let s1 := forRange 1 (s.n + 1) (fun ii t => { t with vdc := upd t.vdc ii (t.v0 ii) }) s
    { s1 with lastTime := if 0 < s1.time0 then s1.time0 else 0 }
  else s

/-- `SIM_DATA::restore_voltages` (u_sim_data.cc:192-197) -/
def restoreVoltages (s : V F) : V F :=
  forRange 1 (s.n + 1) (fun ii t => { t with v0 := upd t.v0 ii (t.vdc ii), vt1 := upd t.vt1 ii (t.vdc ii) }) s

/-- `SIM_DATA::zero_voltages` (u_sim_data.cc:199-204) -/
def zeroVoltages (s : V F) : V F :=
  forRange 1 (s.n + 1) (fun ii t => { t with v0 := upd t.v0 ii 0, vt1 := upd t.vt1 ii 0, vdc := upd t.vdc ii 0, i := upd t.i ii 0 }) s

/-- What can happen to the vectors during an analysis. -/
inductive VOp (F : Type _) where
  | iterate (v0 : ℕ → F)      -- solve_equations writes _v0 (s__solve.cc:274-283)
  | accept (vt1 : ℕ → F)      -- transpose of v0 into vt1 at acceptance
  | time (t : F)
  | setLimit
  | setLimit1 (v : F)         -- by a source, d_vs.cc:111-130
  | clearLimit (vmax vmin : F)
  | keep
  | restore
  | freeze (b : Bool)

/-- one such event -/
def vStep (s : V F) : VOp F → V F
  | .iterate v => { s with v0 := v }
  | .accept v => { s with vt1 := v }
  | .time t => { s with time0 := t }
  | .setLimit => setLimit s
  | .setLimit1 v => setLimit1 v s
  | .clearLimit a b => clearLimit a b s
  | .keep => keepVoltages s
  | .restore => restoreVoltages s
  | .freeze b => { s with freeze := b }

end Gnucap.Sim
