import Verif.OptModel
import Verif.SwitchModel
import Mathlib.Analysis.SpecialFunctions.Complex.Arg
import Mathlib.Analysis.SpecialFunctions.Log.Base

/-!
# Readings of probes: names, modifiers, phase, decibels, rounding (model)

lib/e_base.cc:97-155, lib/u_xprobe.cc, include/m_phase.h, and the `tr_probe_num` and `ac_probe_ext` of elements, nodes and subcircuits.
A reading that does not exist is `NOT_VALID`, a number far out (constant.h:100); in an AC analysis it is `none` here.  `double` is ℚ, in an AC
analysis ℝ and ℂ.
-/
namespace Gnucap.XProbe
open Gnucap.Scan

/-! ## operating point and transient -/

/-- what can be asked for -/
inductive Q where
  | vout
  | vin
  | i
  | p
  | pd
  | ps
  | input
  | f
  | ev
  | nv
  | eiv
  | y
  | istamp
  | ioffset
  | ipassive
  | iloss
  | dt
  | dtrequired
  | time
  | timeold
  | r
  | z
  | zraw
  | node
  | errortime
  | timefuture
  | eventtime
  | method
  | charge
  | capacitance
  | dcdt
  | dc
  | dqdt
  | dq
  | flux
  | inductance
  | dldt
  | dl
  | dfdt
  | dflux
  | fflux
  | rflux
  | fioffset
  | rioffset
  | gain
  | sumP
  | sumPD
  | sumPS
deriving DecidableEq

/-- a text tried with `Umatch`, and what is read if it matches -/
abbrev Table := List (List Char × Q)

/-- `ELEMENT::tr_probe_num` (e_elemnt.cc:376-439) -/
def elemTable : Table := [
  (['v', '{', 'o', 'u', 't', '}', ' '], .vout),
  (['v', 'i', '{', 'n', '}', ' '], .vin),
  (['i', ' '], .i),
  (['p', ' '], .p),
  (['p', 'd', ' '], .pd),
  (['p', 's', ' '], .ps),
  (['i', 'n', '{', 'p', 'u', 't', '}', ' '], .input),
  (['f', ' '], .f),
  (['e', 'v', ' ', '|', 'd', 'f', ' '], .ev),
  (['n', 'v', ' '], .nv),
  (['e', 'i', 'v', ' '], .eiv),
  (['y', ' '], .y),
  (['i', 's', '{', 't', 'a', 'm', 'p', '}', ' '], .istamp),
  (['i', 'o', 'f', '{', 'f', 's', 'e', 't', '}', ' '], .ioffset),
  (['i', 'p', '{', 'a', 's', 's', 'i', 'v', 'e', '}', ' '], .ipassive),
  (['i', 'l', '{', 'o', 's', 's', '}', ' '], .iloss),
  (['d', 't', ' '], .dt),
  (['d', 't', 'r', '{', 'e', 'q', 'u', 'i', 'r', 'e', 'd', '}', ' '], .dtrequired),
  (['t', 'i', 'm', 'e', ' '], .time),
  (['t', 'i', 'm', 'e', 'o', '{', 'l', 'd', '}', ' '], .timeold),
  (['r', ' '], .r),
  (['z', ' '], .z),
  (['z', 'r', 'a', 'w', ' '], .zraw)]

/-- `COMPONENT::tr_probe_num` (e_compon.cc:855-872) -/
def compTable : Table := [
  (['v'], .node),
  (['e', 'r', 'r', 'o', 'r', '{', 't', 'i', 'm', 'e', '}', ' ', '|', 'n', 'e', 'x', 't', '{', 't', 'i', 'm', 'e', '}', ' '], .errortime),
  (['t', 'i', 'm', 'e', 'f', '{', 'u', 't', 'u', 'r', 'e', '}', ' '], .timefuture),
  (['e', 'v', 'e', 'n', 't', '{', 't', 'i', 'm', 'e', '}', ' '], .eventtime)]

/-- `STORAGE::tr_probe_num` (e_storag.cc:220-227) -/
def storTable : Table := [
  (['m', 'e', 't', 'h', 'o', 'd', ' '], .method)]

/-- `DEV_CAPACITANCE::tr_probe_num` (d_cap.cc:170-187) -/
def capTable : Table := [
  (['q', '{', 'c', 'a', 'p', '}', ' ', '|', 'c', 'h', '{', 'a', 'r', 'g', 'e', '}', ' '], .charge),
  (['c', '{', 'a', 'p', 'a', 'c', 'i', 't', 'a', 'n', 'c', 'e', '}', ' '], .capacitance),
  (['d', 'c', 'd', 't', ' '], .dcdt),
  (['d', 'c', ' '], .dc),
  (['d', 'q', 'd', 't', ' '], .dqdt),
  (['d', 'q', ' '], .dq)]

/-- `DEV_INDUCTANCE::tr_probe_num` (d_coil.cc:554-571) -/
def coilTable : Table := [
  (['f', 'l', 'u', 'x', ' '], .flux),
  (['i', 'n', 'd', '{', 'u', 'c', 't', 'a', 'n', 'c', 'e', '}', ' ', '|', 'l', ' '], .inductance),
  (['d', 'l', 'd', 't', ' '], .dldt),
  (['d', 'l', ' '], .dl),
  (['d', 'f', 'd', 't', ' '], .dfdt),
  (['d', 'f', 'l', 'u', 'x', ' '], .dflux)]

/-- `DEV_MUTUAL_L::tr_probe_num` (d_coil.cc:573-586) -/
def mutualTable : Table := [
  (['f', 'f', 'l', 'u', 'x', ' '], .fflux),
  (['r', 'f', 'l', 'u', 'x', ' '], .rflux),
  (['f', 'i', 'o', 'f', '{', 'f', 's', 'e', 't', '}', ' '], .fioffset),
  (['r', 'i', 'o', 'f', '{', 'f', 's', 'e', 't', '}', ' '], .rioffset)]

/-- `DEV::tr_probe_num` of the meter (d_meter.cc:70-77) -/
def meterTable : Table := [
  (['g', 'a', 'i', 'n', ' '], .gain)]

/-- `DEV_SUBCKT::tr_probe_num` (d_subckt.cc:279-309) -/
def subTable : Table := [
  (['p', ' '], .sumP),
  (['p', 'd', ' '], .sumPD),
  (['p', 's', ' '], .sumPS)]

/-- the devices, with the tables of their bases behind their own -/
inductive Dev where
  | element | capacitor | inductor | mutual | meter | subckt
deriving DecidableEq

def Dev.table : Dev → Table
  | .element => elemTable ++ compTable
  | .capacitor => capTable ++ (storTable ++ (elemTable ++ compTable))
  | .inductor => coilTable ++ (storTable ++ (elemTable ++ compTable))
  | .mutual => mutualTable ++ (coilTable ++ (storTable ++ (elemTable ++ compTable)))
  | .meter => meterTable ++ (elemTable ++ compTable)
  | .subckt => subTable ++ compTable

/-- `Umatch` (l_pmatch.cc:35-43) along the table; what is left of the text comes with it -/
def lookup {α : Type} (ci : Bool) : List (List Char × α) → List Char → Option (α × List Char)
  | [], _ => none
  | (p, q) :: t, x =>
    match umatch ci p x with
    | .ok r => some (q, r)
    | _ => lookup ci t x

/-- constant.h:94-105 -/
def maxDbl : ℚ := (2 - 1 / 2 ^ 52) * 2 ^ 1023
def notValid : ℚ := -maxDbl * (9647958 / 10 ^ 7)
def bigBig : ℚ := maxDbl * (9247958 / 10 ^ 7)
def linear : ℚ := -maxDbl * (9747958 / 10 ^ 7)

/-- what an element reads from (e_elemnt.h, e_compon.h); `node k` is `n_(k).v0()`, `net` is `net_nodes()` -/
structure Quant where
  outvolts : ℚ
  involts : ℚ
  amps : ℚ
  yx : ℚ
  yf0 : ℚ
  yf1 : ℚ
  value : ℚ
  mx : ℚ
  mc1 : ℚ
  mc0 : ℚ
  loss0 : ℚ
  dt : ℚ
  errorEstimate : ℚ
  event : ℚ
  time0 : ℚ
  time1 : ℚ
  z : ℚ
  zraw : ℚ
  node : ℕ → ℚ
  net : ℕ

/-- what `ELEMENT` and `COMPONENT` return for each (e_elemnt.cc:378-435, e_compon.cc:858-868); `rest` is what is left of the text.
The readings of storage devices, meters and subcircuits are not here. -/
def Quant.read (e : Quant) (rest : List Char) : Q → Option ℚ
  | .vout => some e.outvolts
  | .vin => some e.involts
  | .i => some e.amps
  | .p => some (e.amps * e.outvolts)
  | .pd => some (if 0 < e.amps * e.outvolts then e.amps * e.outvolts else 0)
  | .ps => some (if e.amps * e.outvolts < 0 then -(e.amps * e.outvolts) else 0)
  | .input => some e.yx
  | .f => some (if e.yf0 = linear then e.yx * e.yf1 else e.yf0)
  | .ev => some e.yf1
  | .nv => some e.value
  | .eiv => some e.mx
  | .y => some e.mc1
  | .istamp => some (e.mc0 + e.mx * e.mc1)
  | .ioffset => some e.mc0
  | .ipassive => some (e.mc1 * e.involts)
  | .iloss => some (e.loss0 * e.outvolts)
  | .dt => some e.dt
  | .dtrequired => some (if 0 < e.errorEstimate - e.time0 then e.errorEstimate - e.time0 else e.errorEstimate - e.time1)
  | .time => some e.time0
  | .timeold => some e.time1
  | .r => some (if e.mc1 ≠ 0 then 1 / e.mc1 else maxDbl)
  | .z => some e.z
  | .zraw => some e.zraw
  | .node =>
    match Opt.number .si rest with
    | some (x, _) => (match Opt.toInt x with
      | some n => some (if 0 < n ∧ n ≤ e.net then e.node (n - 1).toNat else notValid)
      | none => none)
    | none => none
  | .errortime => some (if e.errorEstimate < bigBig then e.errorEstimate else 0)
  | .timefuture => some (if e.errorEstimate < e.event then e.errorEstimate else e.event)
  | .eventtime => some (if e.event < bigBig then e.event else 0)
  | _ => none

/-- `tr_probe_num` of an element (e_elemnt.cc:376-439); `none` if the number of a node is too big to be read (undefined) -/
def Quant.trProbe (ci : Bool) (e : Quant) (x : List Char) : Option ℚ :=
  match lookup ci Dev.element.table x with
  | some (q, r) => e.read r q
  | none => some notValid

/-- the rounding in `probe_num` (e_base.cc:105); `fl` is `OPT::floor` -/
def denoise (fl x : ℚ) : ℚ := if 1 ≤ |x| then x else ⌊x / fl + 1 / 2⌋ * fl

/-- `probe_num` (e_base.cc:97-106), not in AC -/
def Quant.probeNum (ci : Bool) (fl : ℚ) (e : Quant) (x : List Char) : Option ℚ := (e.trProbe ci x).map (denoise fl)

/-- the readings of `p`, `pd`, `ps` of a subcircuit (d_subckt.cc:281-305); the cards in it: elements, or others (`none`) that have no such reading -/
def sumOver (ci : Bool) (fl : ℚ) (what : List Char) : List (Option Quant) → Option ℚ
  | [] => some 0
  | none :: l => (sumOver ci fl what l).map fun s => denoise fl notValid + s
  | some e :: l => (e.probeNum ci fl what).bind fun a => (sumOver ci fl what l).map fun s => a + s

def subPower (ci : Bool) (fl : ℚ) (parts : List (Option Quant)) : Q → Option ℚ
  | .sumP => sumOver ci fl ['P'] parts
  | .sumPD => sumOver ci fl ['P', 'D'] parts
  | .sumPS => sumOver ci fl ['P', 'S'] parts
  | _ => none

/-- what a current controlled switch reads (d_switch.cc:522, 575) -/
def switchInput (ci : Bool) (fl : ℚ) (e : Quant) : Option ℚ := e.probeNum ci fl ['I']

/-! ## nodes -/

/-- what can be asked of a node's logic data -/
inductive L where
  | logic | lastchange | finaltime | diter | aiter
deriving DecidableEq

/-- `LOGIC_NODE::tr_probe_num` (e_logicnode.cc:44-58) -/
def logicTable : List (List Char × L) := [
  (['l', '{', 'o', 'g', 'i', 'c', '}', ' '], .logic),
  (['l', 'a', '{', 's', 't', 'c', 'h', 'a', 'n', 'g', 'e', '}', ' '], .lastchange),
  (['f', 'i', '{', 'n', 'a', 'l', 't', 'i', 'm', 'e', '}', ' '], .finaltime),
  (['d', 'i', '{', 't', 'e', 'r', '}', ' '], .diter),
  (['a', 'i', '{', 't', 'e', 'r', '}', ' '], .aiter)]

/-- the text in `NODE::tr_probe_num` that leads to the logic data (e_node.cc:122) -/
def logicNames : List Char := ['l', '{', 'o', 'g', 'i', 'c', '}', ' ', '|', 'l', 'a', '{', 's', 't', 'c', 'h', 'a', 'n', 'g', 'e', '}', ' ', '|', 'f', 'i', '{', 'n', 'a', 'l', 't', 'i', 'm', 'e', '}', ' ', '|', 'd', 'i', '{', 't', 'e', 'r', '}', ' ', '|', 'a', 'i', '{', 't', 'e', 'r', '}', ' ', '|', 'c', 'o', 'u', 'n', 't', ' ']

/-- the end of a chain of calls -/
inductive Call where
  | logic (q : L)
  | other              -- `v`, `z` and what comes behind the logic names
  | running            -- calls without end so far

mutual
/-- `NODE::tr_probe_num` (e_node.cc:115-151), of a node of the circuit; its logic data is `_nstat[matrix_number()]` -/
def nodeProbe (ci : Bool) : ℕ → List Char → Call
  | 0, _ => .running
  | n + 1, x =>
    match umatch ci ['v', ' '] x with
    | .ok _ => .other
    | _ =>
      match umatch ci ['z', ' '] x with
      | .ok _ => .other
      | _ =>
        match umatch ci logicNames x with
        | .ok _ => logicProbe ci n x
        | _ => .other
/-- `LOGIC_NODE::tr_probe_num` (e_logicnode.cc:44-58): its own, or that of the `NODE` it is derived from, which has the same
`matrix_number()` (u_sim_data.cc:298-301) -/
def logicProbe (ci : Bool) : ℕ → List Char → Call
  | 0, _ => .running
  | n + 1, x =>
    match lookup ci logicTable x with
    | some (q, _) => .logic q
    | none => nodeProbe ci n x
end

/-! ## AC -/

/-- `enum mod_t` (u_xprobe.h:29) -/
inductive Mod where
  | mag | phase | real | imag
deriving DecidableEq

/-- `enum phase_t` (u_opt.h:56) -/
inductive PhaseMode where
  | degrees | radians | pDegrees | nDegrees
deriving DecidableEq

/-- `XPROBE` that exists (u_xprobe.h:31-72) -/
structure XP where
  value : ℂ
  modifier : Mod
  dbscale : ℝ

/-- `phase` (m_phase.h:31-56); `RTOD` is 180/π (constant.h:55) -/
noncomputable def phaseOf (mode : PhaseMode) (x : ℂ) : ℝ :=
  match mode with
  | .degrees => x.arg * (180 / Real.pi)
  | .pDegrees => if x.arg * (180 / Real.pi) < 0 then x.arg * (180 / Real.pi) + 360 else x.arg * (180 / Real.pi)
  | .nDegrees => if x.arg * (180 / Real.pi) > 0 then x.arg * (180 / Real.pi) - 360 else x.arg * (180 / Real.pi)
  | .radians => x.arg

/-- the part of a value (u_xprobe.cc:36-53) -/
noncomputable def part (mode : PhaseMode) (x : ℂ) : Mod → ℝ
  | .mag => ‖x‖
  | .phase => phaseOf mode x
  | .real => x.re
  | .imag => x.im

/-- `XPROBE::operator()` (u_xprobe.cc:29-59); `VOLTMIN` is 1e-50 (constant.h:105) -/
noncomputable def XP.read (mode : PhaseMode) (xp : XP) (m : Option Mod) (db : Bool) : ℝ :=
  let rv := part mode xp.value (m.getD xp.modifier)
  if db then xp.dbscale * Real.logb 10 (max rv (1 / 10 ^ 50)) else rv

/-- `fix_case` (e_base.cc:31-34) -/
def fixCase (ci : Bool) (c : Char) : Char := if ci then c.toLower else c

/-- does the text end in `db`? (e_base.cc:116) -/
def endsDb (ci : Bool) (w : List Char) : Bool :=
  decide (2 < w.length) && (match umatch ci ['d', 'b', ' '] (w.drop (w.length - 2)) with | .ok _ => true | _ => false)

/-- the modifier meant by a letter (e_base.cc:121-127) -/
def modOf : Char → Option Mod
  | 'm' => some .mag
  | 'p' => some .phase
  | 'r' => some .real
  | 'i' => some .imag
  | _ => none

/-- taking the modifier off (e_base.cc:120-128) -/
def chop (ci : Bool) (w : List Char) : Option Mod × List Char :=
  if 1 < w.length then
    match w.getLast? with
    | some c => (match modOf (fixCase ci c) with
      | some m => (some m, w.dropLast)
      | none => (none, w))
    | none => (none, w)
  else (none, w)

/-- a reading in AC, or a use of memory outside of the buffer -/
inductive Reading where
  | value (x : ℝ)
  | notValid
  | ub

/-- `ac_probe_num` (e_base.cc:108-145); `ext` is `ac_probe_ext`, `BUFLEN` is 256 (md.h:71) -/
noncomputable def acProbeNum (ci : Bool) (mode : PhaseMode) (ext : List Char → Option XP) (what : List Char) : Reading :=
  if 256 < what.length then .ub
  else
    let db := endsDb ci what
    let w := if db then what.take (what.length - 2) else what
    let (m, w) := chop ci w
    match ext w with
    | some xp => .value (xp.read mode m db)
    | none =>
      match ext what with
      | some xp => .value (xp.read mode m db)
      | none => .notValid

/-- `ELEMENT::ac_probe_ext` (e_elemnt.cc:447-478) -/
def acTable : Table := [
  (['v', '{', 'o', 'u', 't', '}', ' '], .vout),
  (['v', 'i', 'n', ' '], .vin),
  (['i', ' '], .i),
  (['p', ' '], .p),
  (['n', 'v', ' '], .nv),
  (['e', 'v', ' '], .ev),
  (['y', ' '], .y),
  (['r', ' '], .r),
  (['z', ' '], .z),
  (['z', 'r', 'a', 'w', ' '], .zraw)]

/-- what it reads from -/
structure AcQuant where
  outvolts : ℂ
  involts : ℂ
  amps : ℂ
  value : ℝ
  ev : ℂ
  admittance : ℂ
  z : ℂ
  zraw : ℂ

noncomputable def AcQuant.probe (e : AcQuant) : Q → Option XP
  | .vout => some ⟨e.outvolts, .mag, 20⟩
  | .vin => some ⟨e.involts, .mag, 20⟩
  | .i => some ⟨e.amps, .mag, 20⟩
  | .p => some ⟨e.outvolts * (starRingEnd ℂ) e.amps, .real, 10⟩
  | .nv => some ⟨(e.value : ℂ), .real, 20⟩
  | .ev => some ⟨e.ev, .mag, 20⟩
  | .y => some ⟨e.admittance, .real, 20⟩
  | .r => some (if e.admittance = 0 then ⟨((maxDbl : ℚ) : ℂ), .real, 20⟩ else ⟨1 / e.admittance, .mag, 20⟩)
  | .z => some ⟨e.z, .mag, 20⟩
  | .zraw => some ⟨e.zraw, .mag, 20⟩
  | _ => none

noncomputable def AcQuant.ext (ci : Bool) (e : AcQuant) (x : List Char) : Option XP :=
  match lookup ci acTable x with
  | some (q, _) => e.probe q
  | none => none

end Gnucap.XProbe
