import Verif.LimitModel
import Mathlib.Analysis.Real.Sqrt

/-!
# Mosfet (model)

Models `do_tr`, `reverse_if_needed`, the elements `Ids`, `Idb`, `Isb` (d_poly_g.cc) and the probes of terminal currents of d_mos.model,
the equations of level 1 (d_mos1.model), and where levels 7 and 8 put the substrate current.  Real arithmetic.
-/
namespace Gnucap.Mos

/-- What the equations of a level give for `vgs`, `vds` (not negative), `vbs`: the current, its slopes, `von`, `vgst`, `vdsat`,
substrate current and its slopes -/
structure Out where
  ids : ℝ
  gds : ℝ
  gm : ℝ
  gmb : ℝ
  von : ℝ
  vgst : ℝ
  vdsat : ℝ
  isub : ℝ := 0
  gbd : ℝ := 0
  gbg : ℝ := 0
  gbb : ℝ := 0

/-- parameters of level 1: model (`vto gamma phi egap lambda`) and at temperature (`tphi tegap beta`), d_mos1.model:41-112 -/
structure P1 where
  vto : ℝ
  gamma : ℝ
  phi : ℝ
  egap : ℝ
  lambda : ℝ
  tphi : ℝ
  tegap : ℝ
  beta : ℝ

/-- `egap_` (d_mos1.model:109), temperature absolute -/
noncomputable def egapAt (temp : ℝ) : ℝ := 116 / 100 - 702 / 1000000 * temp * temp / (temp + 1108)

/-- values at temperature (d_mos1.model:95-112); `k`, `q` are P_K, P_Q, `kq` P_K_Q -/
noncomputable def P1.at (vto gamma phi lambda kp w l k q kq tnom temp : ℝ) : P1 where
  vto := vto
  gamma := gamma
  phi := phi
  egap := egapAt tnom
  lambda := lambda
  tphi := phi * (temp / tnom) + (-2 * (temp * kq) * (3 / 2 * Real.log (temp / tnom) +
    q * ((egapAt tnom * (temp / tnom) - egapAt temp) / (2 * (temp * k)))))
  tegap := egapAt temp
  beta := kp / (temp / tnom * Real.sqrt (temp / tnom)) * w / l

/-- `sarg` and its slope (d_mos1.model:122-135) -/
noncomputable def P1.sarg (p : P1) (vbs : ℝ) : ℝ × ℝ :=
  if vbs ≤ 0 then (Real.sqrt (p.tphi - vbs), -(1 / 2) / Real.sqrt (p.tphi - vbs))
  else
    let s := Real.sqrt p.tphi / (1 + 1 / 2 * vbs / p.tphi)
    (s, -(1 / 2) * s * s / p.tphi * Real.sqrt p.tphi)

/-- `tr_eval` of level 1 after `reverse_if_needed` (d_mos1.model:122-163) -/
noncomputable def P1.eval (p : P1) (vgs vds vbs : ℝ) : Out :=
  let sa := p.sarg vbs
  let von := p.vto + p.gamma * (sa.1 - Real.sqrt p.phi) + 1 / 2 * (p.egap - p.tegap) + 1 / 2 * (p.tphi - p.phi)
  let vgst := vgs - von
  let vdsat := if vgst < 0 then 0 else vgst
  if vgst < 0 then ⟨0, 0, 0, 0, von, vgst, vdsat, 0, 0, 0, 0⟩
  else if vdsat < vds then
    let gm := p.beta * vgst * (1 + p.lambda * vds)
    ⟨gm * (1 / 2 * vgst), 1 / 2 * p.beta * p.lambda * vgst * vgst, gm, -gm * p.gamma * sa.2, von, vgst, vdsat, 0, 0, 0, 0⟩
  else
    let gm := p.beta * vds * (1 + p.lambda * vds)
    ⟨gm * (vgst - 1 / 2 * vds), p.beta * (vgst - vds + p.lambda * vds * (2 * vgst - 3 / 2 * vds)), gm, -gm * p.gamma * sa.2,
      von, vgst, vdsat, 0, 0, 0, 0⟩

/-- What a device keeps (d_mos.model:173-263) -/
structure St where
  reversed : Bool
  vds : ℝ
  vgs : ℝ
  vbs : ℝ
  von : ℝ
  vgst : ℝ
  vdsat : ℝ
  ids : ℝ
  idsxxx : ℝ
  gds : ℝ
  gmf : ℝ
  gmr : ℝ
  gmbf : ℝ
  gmbr : ℝ
  idb : ℝ
  idbxxx : ℝ
  gdbds : ℝ
  gdbgs : ℝ
  gdbbs : ℝ
  isb : ℝ
  isbxxx : ℝ
  gsbsd : ℝ
  gsbgd : ℝ
  gsbbd : ℝ

/-- Settings: equations, `polarity`, bit 0040 of mosflags, are drain and gate one node, does the substrate current go to `idb`
in forward operation (d_mos8.model:1561; level 7 the other way round, d_mos7.model:1440) -/
structure Cfg where
  E : ℝ → ℝ → ℝ → Out
  pol : ℝ
  keepVbs : Bool
  dg : Bool
  subFwd : Bool

/-- voltages of the nodes `id`, `g`, `is`, `b` -/
structure Nodes where
  d : ℝ
  g : ℝ
  s : ℝ
  b : ℝ

/-- `reverse_if_needed` (d_mos.model:458-479) -/
noncomputable def St.reverseIfNeeded (c : Cfg) (s : St) : St :=
  if s.vds < 0 then
    { s with reversed := !s.reversed, vgs := s.vgs - s.vds, vds := -s.vds, vbs := if c.keepVbs then s.vbs - s.vds else min (s.vbs - s.vds) 0 }
  else s

/-- `tr_eval`: reverse, equations, assignment by direction (d_mos1.model:119, 164-171; d_mos8.model:1506-1516, 1561-1573) -/
noncomputable def St.trEval (c : Cfg) (s : St) : St :=
  let s := s.reverseIfNeeded c
  let o := c.E s.vgs s.vds s.vbs
  let s := { s with von := o.von, vgst := o.vgst, vdsat := o.vdsat, gds := o.gds }
  let s :=
    if s.reversed then { s with ids := -o.ids, gmr := o.gm, gmbr := o.gmb, gmf := 0, gmbf := 0 }
    else { s with ids := o.ids, gmf := o.gm, gmbf := o.gmb, gmr := 0, gmbr := 0 }
  if s.reversed != c.subFwd then
    { s with idb := o.isub, gdbds := o.gbd, gdbgs := o.gbg, gdbbs := o.gbb, isb := 0, gsbsd := 0, gsbgd := 0, gsbbd := 0 }
  else
    { s with idb := 0, gdbds := 0, gdbgs := 0, gdbbs := 0, isb := o.isub, gsbsd := o.gbd, gsbgd := o.gbg, gsbbd := o.gbb }

/-- after it (d_mos.model:559-569) -/
noncomputable def St.lines (c : Cfg) (s : St) : St :=
  let s :=
    if s.reversed then
      { s with
        idsxxx := s.ids + s.vds * s.gds + s.vgs * s.gmr + s.vbs * s.gmbr
        isbxxx := s.isb - s.vds * s.gsbsd - s.vgs * s.gsbgd - s.vbs * s.gsbbd
        idbxxx := 0 }
    else
      { s with
        idsxxx := s.ids - s.vds * s.gds - s.vgs * s.gmf - s.vbs * s.gmbf
        idbxxx := s.idb - s.vds * s.gdbds - s.vgs * s.gdbgs - s.vbs * s.gdbbs
        isbxxx := 0 }
  { s with ids := s.ids * c.pol, idsxxx := s.idsxxx * c.pol }

/-- the voltages asked for (d_mos.model:517-526), times polarity -/
def effVds (c : Cfg) (v : Nodes) (r : Bool) : ℝ := c.pol * (if r then v.s - v.d else v.d - v.s)
def effVgs (c : Cfg) (v : Nodes) (r : Bool) : ℝ := c.pol * (if r then v.g - v.d else v.g - v.s)
def effVbs (c : Cfg) (v : Nodes) (r : Bool) : ℝ := c.pol * (if r then v.b - v.d else v.b - v.s)

/-- `do_tr` (d_mos.model:498-573) but for its subcircuit; `init`: the initial step -/
noncomputable def St.doTr (c : Cfg) (init : Bool) (v : Nodes) (s : St) : St :=
  let s :=
    if init then { s with reversed := false, vds := 0, vgs := 0, vbs := 0 }
    else
      let vgs := Limit.fetLimitVgs (effVgs c v s.reversed) s.vgs s.von
      let vds :=
        if c.dg then effVds c v s.reversed + (vgs - effVgs c v s.reversed) else Limit.fetLimitVds (effVds c v s.reversed) s.vds
      { s with vgs := vgs, vds := vds, vbs := min (effVbs c v s.reversed) 0 }
  (s.trEval c).lines c

/-- current from drain to source as loaded by `Ids` for node voltages `u` (d_mos.model:109-110, d_poly_g.cc:190-198, 208-215) -/
def St.iDS (s : St) (u : Nodes) : ℝ :=
  s.idsxxx + s.gds * (u.d - u.s) + s.gmf * (u.g - u.s) + s.gmr * (u.d - u.g) + s.gmbf * (u.b - u.s) + s.gmbr * (u.d - u.b)

/-- from drain to bulk, `Idb` (d_mos.model:111) -/
def St.iDB (s : St) (u : Nodes) : ℝ := s.idbxxx + s.gdbds * (u.d - u.s) + s.gdbgs * (u.g - u.s) + s.gdbbs * (u.b - u.s)

/-- from source to bulk, `Isb` (d_mos.model:114) -/
def St.iSB (s : St) (u : Nodes) : ℝ := s.isbxxx + s.gsbsd * (u.s - u.d) + s.gsbgd * (u.g - u.d) + s.gsbbd * (u.b - u.d)

/-! ## probes of terminal currents -/

/-- currents of the elements: `Ids` (drain to source), the junctions (each in its own direction), gate capacitors (from the gate) -/
structure Amps where
  ids : ℝ
  ddb : ℝ
  dsb : ℝ
  cgs : ℝ
  cgd : ℝ
  cgb : ℝ

/-- d_mos.model:144-149, 174, no series resistors -/
def probeId (pol : ℝ) (a : Amps) : ℝ := a.ids - a.cgd - a.ddb * pol
def probeIs (pol : ℝ) (a : Amps) : ℝ := -a.ids - a.cgs - a.dsb * pol
def probeIg (a : Amps) : ℝ := a.cgs + a.cgd + a.cgb
def probeIb (pol : ℝ) (a : Amps) : ℝ := -a.ddb * pol - a.dsb * pol - a.cgb
def probeIdstray (pol : ℝ) (a : Amps) : ℝ := -a.cgd + a.ddb * pol

end Gnucap.Mos
