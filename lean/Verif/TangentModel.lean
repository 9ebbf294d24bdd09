import Verif.IntegModel
import Verif.ElemModel

/-!
# The companion lines of the elements (model)

What `tr_begin`, `dc_advance`, `do_tr` / `do_tr_last` and `tr_load` of the resistive elements and of the sources leave in
`_y[0]`, `_m0` and `_loss0`: resistor, admittance and VCCS, VCVS, V and I sources, VCG, VCR, CCCS, CCVS.  Plain arithmetic
over an ordered field; rounding, the voltage limiting that produces the input voltages, the convergence flags, error messages
and `set_limit` are left out.
-/
namespace Gnucap.Tangent
open Gnucap.Integ Gnucap.Mat Gnucap.Load

/-- Which device: `apps/d_res.cc`, `d_admit.cc` (the admittance, and the VCCS derived
from it), `d_vcvs.cc`, `d_vs.cc`, `d_cs.cc`,
`d_vcg.cc`, `d_vcr.cc`, `d_cccs.cc`, `d_ccvs.cc` -/
inductive Cls where
  | res | adm | vccs | vcvs | vs | cs | vcg | vcr | cccs | ccvs
deriving DecidableEq

/-- The part of `ELEMENT` that matters (e_elemnt.h:174-190): `_value`, `_y[0]`, `_y1`, `_m0`, `_m1`, `_loss0`, `_loss1` -/
structure Elt (F : Type _) where
  value : F
  y : FPoly F
  y1 : FPoly F
  m0 : CPoly F
  m1 : CPoly F
  loss0 : F
  loss1 : F

/-- The element whose current is sensed, as `do_tr_last` looks at it (d_cccs.cc:118-124): a coupled coil (`has_inode`), or
one of the elements with `has_iv_probe`, with its `_loss0`, `_m0.c0`, `_m0.c1`. -/
inductive Sense (F : Type _) where
  | inode
  | iv (loss c0 c1 : F)

/-- What an evaluation gets from outside: `tr_involts_limited()`, `tr_outvolts()`, `_input->tr_amps()`, the time, and the
sensed element. -/
structure Ext (F : Type _) where
  vin : F
  vout : F
  amps : F
  time : F
  sense : Sense F

/-- How the element is described: `fn` is `common()->tr_eval`, where there is one: from
`_y[0].x` to what it leaves in `_y[0]`; `probes` is
`has_probes()` -/
structure Desc (F : Type _) where
  cls : Cls
  short : F               -- OPT::shortckt
  linear : F              -- the constant LINEAR
  probes : Bool
  fn : Option (F → FPoly F)

section
variable {F : Type _} [Field F] [LinearOrder F]

/-- `using_tr_eval` (e_elemnt.h:458-461) -/
def Desc.using (d : Desc F) : Bool := d.probes || d.fn.isSome

/-- a newly made element (e_elemnt.cc constructors: everything 0), with its value evaluated by `precalc_last` -/
def Elt.new (v : F) : Elt F := ⟨v, ⟨0, 0, 0⟩, ⟨0, 0, 0⟩, ⟨0, 0, 0⟩, ⟨0, 0, 0⟩, 0, 0⟩

/-- The value a plain resistor works with (d_res.cc:88-93): too small is a short circuit, of positive sign -/
def resValue (short v : F) : F := if |v| < short then short else v

/-- `ELEMENT::tr_begin` (e_elemnt.cc:177-190) -/
def Elt.beginBase (linear : F) (s : Elt F) : Elt F :=
  { s with y := ⟨0, linear, s.value⟩, y1 := ⟨0, linear, s.value⟩ }

/-- `tr_begin` of each class -/
def Elt.begin (d : Desc F) (s : Elt F) : Elt F :=
  let s := s.beginBase d.linear
  match d.cls with
  | .res =>                                                             -- d_res.cc:106-130
    let f1 := if s.value = 0 then d.short else if |s.value| < d.short then d.short else s.value
    let m : CPoly F := ⟨s.y.x, 0, 1 / f1⟩
    { s with y := { s.y with f1 := f1 }, y1 := { s.y1 with f1 := f1 }, m0 := m, m1 := m }
  | .adm | .vccs => { s with m0 := ⟨s.y.x, 0, s.y.f1⟩, m1 := ⟨s.y.x, 0, s.y.f1⟩ }   -- d_admit.cc:135-144
  | .vcvs =>                                                            -- d_vcvs.cc:97-105
    let l := 1 / d.short
    { s with loss0 := l, loss1 := l, m0 := ⟨0, 0, -l * s.y.f1⟩, m1 := ⟨0, 0, -l * s.y.f1⟩ }
  | .vs =>                                                              -- d_vs.cc:98-119
    let l := 1 / d.short
    { s with
      y := ⟨0, 0, s.value⟩, y1 := { s.y1 with f0 := 0 }, loss0 := l, loss1 := l,
      m0 := ⟨0, -l * s.value, 0⟩, m1 := ⟨0, -l * s.value, 0⟩ }
  | .cs =>                                                              -- d_cs.cc:98-110
    { s with
      y := ⟨0, 0, s.value⟩, y1 := { s.y1 with f0 := 0 }, m0 := ⟨0, s.value, 0⟩, m1 := ⟨0, s.value, 0⟩ }
  | .vcg =>                                                             -- d_vcg.cc:76-85
    { s with
      y := { s.y with f0 := 0 }, y1 := { s.y1 with f0 := 0 }, loss0 := 0, loss1 := 0, m0 := ⟨0, 0, 0⟩, m1 := ⟨0, 0, 0⟩ }
  | .vcr =>                                                             -- d_vcr.cc:81-89
    { s with loss0 := 1 / d.short, loss1 := 1 / d.short, m0 := ⟨0, 0, 0⟩, m1 := ⟨0, 0, 0⟩ }
  | .cccs => { s with m0 := ⟨s.y.x, 0, s.y.f1⟩, m1 := ⟨s.y.x, 0, s.y.f1⟩ }  -- d_cccs.cc:93-102
  | .ccvs =>                                                            -- d_ccvs.cc:78-86
    let l := 1 / d.short
    { s with loss0 := l, loss1 := l, m0 := ⟨s.y.x, 0, -l * s.value⟩, m1 := ⟨s.y.x, 0, -l * s.value⟩ }

/-- `precalc_last` with a new value of the parameters (e_elemnt.cc:171-175) -/
def Elt.precalc (v : F) (s : Elt F) : Elt F := { s with value := v }

/-- `dc_advance` of each class.  CCVS, VCG and VCR have none of their own; `ELEMENT::dc_advance` (e_elemnt.cc:235-244)
touches nothing modelled here. -/
def Elt.dcAdvance (d : Desc F) (s : Elt F) : Elt F :=
  if d.using then s else
  match d.cls with
  | .res =>                                                             -- d_res.cc:81-104
    let s := { s with y := { s.y with f1 := resValue d.short s.value } }
    if s.y.f1 ≠ s.y1.f1 then { s with y1 := s.y, m0 := { s.m0 with c1 := 1 / s.y.f1 } } else s
  | .adm | .vccs =>                                                     -- d_admit.cc:117-133
    let s := { s with y := { s.y with f1 := s.value, f0 := d.linear } }
    if s.y.f1 ≠ s.y1.f1 then { s with y1 := s.y, m0 := { s.m0 with c1 := s.y.f1, c0 := 0 } } else s
  | .vcvs =>                                                            -- d_vcvs.cc:77-95
    let s := { s with y := { s.y with f1 := s.value } }
    if s.y1.f1 ≠ s.y.f1 then { s with y1 := s.y, m0 := { s.m0 with c1 := -s.loss0 * s.y.f1, c0 := 0 } } else s
  | .vs =>                                                              -- d_vs.cc:81-96
    let s := { s with y := { s.y with f1 := s.value } }
    if s.y.f1 ≠ s.y1.f1 then { s with y1 := s.y, m0 := { s.m0 with c0 := -s.loss0 * s.y.f1 } } else s
  | .cs =>                                                              -- d_cs.cc:81-97
    let s := { s with y := { s.y with f1 := s.value } }
    if s.y1.f1 ≠ s.y.f1 then { s with y1 := s.y, m0 := { s.m0 with c0 := s.y.f1 } } else s
  | .cccs =>                                                            -- d_cccs.cc:70-85, writing c0
    let s := { s with y := { s.y with f1 := s.value } }
    if s.y1.f1 ≠ s.y.f1 then { s with y1 := s.y, m0 := { s.m0 with c0 := s.y.f1 } } else s
  | .ccvs => s
  | .vcg => s
  | .vcr => s

/-- `ELEMENT::tr_eval` at `_y[0].x = x` (e_elemnt.h:468-480) -/
def trEval (d : Desc F) (value x : F) : FPoly F :=
  match d.fn with
  | some g => g x
  | none => ⟨x, x * value, value⟩

/-- A resistor whose slope came out too small (d_res.cc:157-177) -/
def clampRes (short : F) (y : FPoly F) : FPoly F :=
  if y.f1 ≥ short then y
  else if y.f1 ≤ -short then y
  else if y.f1 ≥ 0 then ⟨y.x, if 0 ≤ y.f0 ∧ y.f0 ≤ y.x * short then y.x * short else y.f0, short⟩
  else ⟨y.x, if 0 ≥ y.f0 ∧ y.f0 ≥ y.x * -short then y.x * -short else y.f0, -short⟩

/-- What `do_tr_last` adds for the sensed element (d_cccs.cc:118-124, d_ccvs.cc:100-106) -/
def addSense (f1 : F) (m : CPoly F) : Sense F → CPoly F
  | .inode => m
  | .iv loss c0 c1 => { m with c0 := m.c0 + f1 * c0, c1 := f1 * (loss + c1) }

/-- `do_tr`, for CCCS and CCVS `do_tr_last` -/
def Elt.eval (d : Desc F) (a : Ext F) (s : Elt F) : Elt F :=
  match d.cls with
  | .res =>                                                             -- d_res.cc:151-191
    if d.using then
      let y := clampRes d.short (trEval d s.value (s.m0.c0 + s.m0.c1 * a.vin))
      { s with y := y, y1 := y, m0 := ⟨a.vin, y.x - y.f0 / y.f1, 1 / y.f1⟩ }
    else s
  | .adm | .vccs =>                                                     -- d_admit.cc:146-165
    if d.using then
      let y := trEval d s.value a.vin
      { s with y := y, y1 := y, m0 := y.toC }
    else s
  | .vcvs =>                                                            -- d_vcvs.cc:107-130
    if d.using then
      let y := trEval d s.value a.vin
      { s with y := y, y1 := y, m0 := y.toC.scale (-s.loss0) }
    else s
  | .vs =>                                                              -- d_vs.cc:121-150
    if d.using then
      let y := trEval d s.value a.time
      { s with y := y, y1 := y, m0 := { s.m0 with c0 := -s.loss0 * y.f1 } }
    else s
  | .cs =>                                                              -- d_cs.cc:112-134
    if d.using then
      let y := trEval d s.value a.time
      { s with y := y, y1 := y, m0 := { s.m0 with c0 := y.f1 } }
    else s
  | .vcg =>                                                             -- d_vcg.cc:87-101
    let y := trEval d s.value a.vin
    let c1 := y.f1 * a.vout
    { s with y := y, y1 := y, loss0 := y.f0, m0 := ⟨a.vout, -y.x * c1, c1⟩ }
  | .vcr =>                                                             -- d_vcr.cc:91-115
    let y := trEval d s.value a.vin
    let y := if y.f0 = 0 then { y with f0 := d.short } else y
    let l := 1 / y.f0
    let c1 := -y.f1 * l * l * a.vout
    { s with y := y, y1 := y, loss0 := l, m0 := ⟨a.vout, -y.x * c1, c1⟩ }
  | .cccs =>                                                            -- d_cccs.cc:104-130
    let y := if d.using then trEval d s.value a.amps else s.y
    let m : CPoly F := if d.using then y.toC else { s.m0 with c0 := 0 }
    { s with y := y, y1 := y, m0 := addSense y.f1 m a.sense }
  | .ccvs =>                                                            -- d_ccvs.cc:88-112
    let y := if d.using then trEval d s.value a.amps else s.y
    let m : CPoly F := if d.using then y.toC else { s.m0 with c0 := 0 }
    { s with y := y, y1 := y, m0 := (addSense y.f1 m a.sense).scale (-s.loss0) }

/-- what `dampdiff` leaves in the new value (e_elemnt.h:196-211); `first` is `is_advance_or_first_iteration()` -/
def dampTo (first : Bool) (damp v0 v1 : F) : F := if first then v0 else v1 + (v0 - v1) * damp

/-- `tr_load` as far as the element itself is concerned (e_elemnt.h:237-355 with the `tr_load` of each class): damp, and
remember what is loaded.  The voltage and current sources load no `c1`. -/
def Elt.load (d : Desc F) (first : Bool) (damp : F) (s : Elt F) : Elt F :=
  let c0 := dampTo first damp s.m0.c0 s.m1.c0
  let c1 := dampTo first damp s.m0.c1 s.m1.c1
  let l := dampTo first damp s.loss0 s.loss1
  match d.cls with
  | .res | .adm | .vccs | .cccs => { s with m0 := ⟨s.m0.x, c0, c1⟩, m1 := ⟨s.m0.x, c0, c1⟩ }
  | .vcvs | .vcg | .vcr | .ccvs =>
    { s with m0 := ⟨s.m0.x, c0, c1⟩, m1 := ⟨s.m0.x, c0, c1⟩, loss0 := l, loss1 := l }
  | .vs => { s with m0 := { s.m0 with c0 := c0 }, m1 := { s.m0 with c0 := c0 }, loss0 := l, loss1 := l }
  | .cs => { s with m0 := { s.m0 with c0 := c0 }, m1 := { s.m0 with c0 := c0 } }

/-- `ELEMENT::tr_amps` (e_elemnt.cc:369-374) as a function of the two voltages: the line that is loaded -/
def Elt.amps (s : Elt F) (vin vout : F) : F := s.loss0 * vout + s.m0.c1 * vin + s.m0.c0

/-- one iteration: evaluate, then load (s__solve.cc:75-130) -/
def Elt.iter (d : Desc F) (first : Bool) (it : Ext F × F) (s : Elt F) : Elt F := (s.eval d it.1).load d first it.2

/-- one point of a DC sweep: `precalc_last` of everything with the new parameters (s_dc.cc:468-473), `dc_advance`
(s__solve.cc:169-171), the first iteration, which is not damped (u_sim_data.h:180), and any number of further ones -/
def Elt.point (d : Desc F) (v : F) (its : List (Ext F × F)) (s : Elt F) : Elt F :=
  match its with
  | [] => (s.precalc v).dcAdvance d
  | it :: rest => rest.foldl (fun s it => s.iter d false it) (((s.precalc v).dcAdvance d).iter d true it)

/-- a DC sweep after `tr_begin` (s_dc.cc:440-512) -/
def sweep (d : Desc F) (v0 : F) (pts : List (F × List (Ext F × F))) : Elt F :=
  pts.foldl (fun s p => s.point d p.1 p.2) ((Elt.new v0).begin d)

/-- what a full (not incremental) `tr_load` puts in the matrix: the loads of the device, `Elem.Dev.trLoads`, with values -/
def Elt.loads (c : Cls) (mf : F) (o1 o2 i1 i2 : ℕ) (s : Elt F) : List (Kind × F) :=
  match c with
  | .res | .adm => [(.passive o1 o2, mf * s.m0.c1), (.source o1 o2, mf * s.m0.c0)]
  | .vccs => [(.active o1 o2 i1 i2, mf * s.m0.c1), (.source o1 o2, mf * s.m0.c0)]
  | .cccs => [(.active o1 o2 i1 i2, mf * s.m0.c1), (.source o1 o2, mf * s.m0.c0)]
  | .vs => [(.passive o1 o2, mf * s.loss0), (.source o1 o2, mf * s.m0.c0)]
  | .cs => [(.source o1 o2, mf * s.m0.c0)]
  | .vcvs | .vcg | .vcr | .ccvs =>
    [(.passive o1 o2, mf * s.loss0), (.active o1 o2 i1 i2, mf * s.m0.c1), (.source o1 o2, mf * s.m0.c0)]
end

/-! ## AC -/
section
variable {F : Type _} [Field F]

/-- `ac_begin` of the current controlled sources: the gain used in AC.  `hasOp` is `has_op() != s_NONE`.  CCCS goes through
`ELEMENT::ac_begin` (d_cccs.cc:51, e_elemnt.cc:192-200), CCVS does not (d_ccvs.cc:50). -/
def acGain (c : Cls) (hasOp : Bool) (s : Elt F) : F :=
  match c with
  | .cccs => if hasOp then s.y.f1 else s.value
  | _ => s.y.f1

/-- The sensed element in AC (d_cccs.cc:146-155): a fixed source with its `_acg` and `_loss0`, a coupled coil, or another
element with its `_acg` -/
inductive AcSense (F : Type _) where
  | src (acg loss : F)
  | inode
  | iv (acg : F)

/-- The AC loads of a CCCS with gain `ev` (d_cccs.cc:132-156, 53) -/
def cccsAcLoads (mf ev : F) (o1 o2 i1 i2 : ℕ) : AcSense F → List (Kind × F)
  | .src acg loss => [(.source o1 o2, mf * (ev * acg)), (.active o1 o2 i1 i2, mf * (ev * loss))]
  | .inode => [(.active o1 o2 i1 i2, mf * ev)]
  | .iv acg => [(.active o1 o2 i1 i2, mf * (ev * acg))]

/-- The AC loads of a CCVS with gain `ev` (d_ccvs.cc:114-140, 52) -/
def ccvsAcLoads (mf loss0 ev : F) (o1 o2 i1 i2 : ℕ) : AcSense F → List (Kind × F)
  | .src acg loss =>
    [(.passive o1 o2, mf * loss0), (.source o1 o2, mf * (-loss0 * ev * acg)), (.active o1 o2 i1 i2, mf * (-loss0 * ev * loss))]
  | .inode => [(.passive o1 o2, mf * loss0), (.active o1 o2 i1 i2, mf * (-loss0 * ev))]
  | .iv acg => [(.passive o1 o2, mf * loss0), (.active o1 o2 i1 i2, mf * (-loss0 * ev * acg))]
end

end Gnucap.Tangent
