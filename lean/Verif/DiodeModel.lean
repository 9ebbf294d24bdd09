import Mathlib.Analysis.SpecialFunctions.Log.Basic
import Mathlib.Analysis.SpecialFunctions.Pow.Real

/-!
# Diode (model)

Models `eval Yj` and `eval Cj` of d_diode.model, and `do_tr` of the admittance Yj around the former.  Real arithmetic.
-/
namespace Gnucap.Diode

/-- the bits of `flags` that are looked at (d_diode.model:195), octal -/
structure Flags where
  b0001 : Bool := false
  b0002 : Bool := false
  b0004 : Bool := false
  b0010 : Bool := false
  b0020 : Bool := false
  b0040 : Bool := false
  b0100 : Bool := false
  b0200 : Bool := false
  b0400 : Bool := false

/-- What `eval Yj` uses: `_isat` and `vt` (computed by `satCurrent`, `thermal`), `gparallel_adjusted`, `OPT::gmin`,
`mos_level`, flags, `bv` (`none`: NA), the number standing for NA -/
structure Par where
  isat : ℝ
  vt : ℝ
  gp : ℝ := 0
  gmin : ℝ := 0
  level : ℕ := 0
  fl : Flags := {}
  bv : Option ℝ := none
  na : ℝ := 0

/-- `vt` (d_diode.model:197), temperature absolute, `kq` = P_K_Q -/
def thermal (kq temp n : ℝ) : ℝ := kq * temp * n

/-- `_isat` (d_diode.model:196-200) -/
noncomputable def satCurrent (is kq temp tnom n xti eg : ℝ) : ℝ :=
  is * (temp / tnom) ^ xti * Real.exp (eg / thermal kq temp n * (temp / tnom - 1))

inductive Region where
  | initoff | reverse | unknown | forward
deriving DecidableEq

/-- `vcrit` (d_diode.model:204) -/
noncomputable def Par.vcrit (p : Par) : ℝ := p.vt * Real.log (p.vt / (Real.sqrt 2 * p.isat))

/-- "Spice style limiting" (d_diode.model:203-220); `vold` is `_y1.f0` -/
noncomputable def Par.limit (p : Par) (vold volts : ℝ) : ℝ :=
  if p.level > 0 || p.fl.b0040 then
    if p.vcrit < volts ∧ p.vt + p.vt < |volts - vold| then
      if 0 < vold then
        if 0 < 1 + (volts - vold) / p.vt then vold + p.vt * Real.log (1 + (volts - vold) / p.vt) else p.vcrit
      else p.vt * Real.log (volts / p.vt)
    else volts
  else volts

/-- value, slope, region -/
structure Ev where
  f0 : ℝ
  f1 : ℝ
  region : Region

/-- diodes inside mosfets (d_diode.model:222-260) -/
noncomputable def Par.evMos (p : Par) (old : Region) (volts : ℝ) : Ev :=
  if p.level ≤ 6 then
    if volts ≤ 0 then ⟨(p.isat / p.vt + p.gmin) * volts, p.isat / p.vt + p.gmin, .reverse⟩
    else ⟨p.isat * (Real.exp (volts / p.vt) - 1) + p.gmin * volts, p.isat * Real.exp (volts / p.vt) / p.vt + p.gmin, .forward⟩
  else if p.level ≤ 8 then
    if volts < 1 / 2 then
      ⟨p.isat * (Real.exp (volts / p.vt) - 1) + p.gmin * volts, p.isat * Real.exp (volts / p.vt) / p.vt + p.gmin, .reverse⟩
    else
      ⟨p.isat * (Real.exp (1 / 2 / p.vt) - 1) + p.isat * Real.exp (1 / 2 / p.vt) / p.vt * (volts - 1 / 2) + p.gmin * volts,
        p.isat * Real.exp (1 / 2 / p.vt) / p.vt + p.gmin, .forward⟩
  else ⟨volts * p.gmin, p.gmin, old⟩

/-- "exact Spice model" (d_diode.model:261-278); the region is not set -/
noncomputable def Par.evSpice (p : Par) (old : Region) (volts : ℝ) : Ev :=
  let y : ℝ × ℝ :=
    if -3 * p.vt ≤ volts then (p.isat * (Real.exp (volts / p.vt) - 1), p.isat * Real.exp (volts / p.vt) / p.vt)
    else if p.bv.isSome ∨ p.bv.getD p.na ≤ volts then
      let arg := (3 * p.vt / (volts * Real.exp 1)) ^ 3
      (-p.isat * (1 + arg), p.isat * 3 * arg / volts)
    else
      let evrev := Real.exp (-(p.bv.getD p.na + volts) / p.vt)
      (-p.isat * evrev, p.isat * evrev / p.vt)
  ⟨y.1 + p.gmin * volts, y.2 + p.gmin, old⟩

/-- the usual model up to the parallel conductance (d_diode.model:280-337); `init`: `off` and the initial step -/
noncomputable def Par.evUsual (p : Par) (init : Bool) (amps volts : ℝ) : Ev :=
  if init then ⟨0, if p.fl.b0020 then p.gmin else 0, .initoff⟩
  else if volts ≤ 0 then
    let f0 := if p.fl.b0010 then 0 else p.isat * Real.exp (volts / p.vt) - p.isat
    let f1 := if p.fl.b0010 then 0 else p.isat * Real.exp (volts / p.vt) / p.vt
    let f1 := if p.fl.b0002 then f1 + p.gmin else f1
    let f0 := if p.fl.b0002 then f0 + p.gmin * volts else f0
    let f1 := if p.fl.b0004 then f1 + p.isat / p.vt else f1
    let f0 := if p.fl.b0004 then f0 + p.isat / p.vt * volts else f0
    ⟨f0, f1, .reverse⟩
  else if 0 ≤ volts ∧ 0 ≤ amps then
    let f1 := (p.isat + amps) / p.vt
    ⟨amps - Real.log (amps / p.isat + 1) * (p.isat + amps) + volts * f1, f1, .forward⟩
  else
    ⟨if p.fl.b0001 then volts * (p.isat / p.vt) else 0, p.isat / p.vt, .unknown⟩

/-- after it (d_diode.model:336-360) -/
noncomputable def Par.finish (p : Par) (volts : ℝ) (y : Ev) : Ev :=
  let f1 := y.f1 + p.gp
  let f0 := y.f0 + p.gp * volts
  let f1 := if p.fl.b0100 then (if f1 < p.gmin then p.gmin else f1) else f1
  let f1' := if p.fl.b0200 then f1 + p.gmin else f1
  let f0 := if p.fl.b0200 then f0 + p.gmin * volts else f0
  let f0 := if p.fl.b0400 then f1' * volts else f0
  ⟨f0, f1', y.region⟩

/-- `eval Yj` (d_diode.model:189-363): `vold` is `_y1.f0`, `amps` is `_y[0].f0` on entry, `volts` is `_y[0].x` -/
noncomputable def Par.evalYj (p : Par) (init : Bool) (old : Region) (vold amps volts : ℝ) : Ev :=
  if p.level > 0 then p.evMos old (p.limit vold volts)
  else if p.fl.b0040 then p.evSpice old (p.limit vold volts)
  else p.finish volts (p.evUsual init amps volts)

/-- What Yj keeps between iterations: the line loaded, `_y1.f0`, `_region` -/
structure Yj where
  c0 : ℝ
  c1 : ℝ
  y1f0 : ℝ
  region : Region

/-- `DEV_ADMITTANCE::do_tr` with `eval Yj` (d_admit.cc:147-157): the current handed in is that of the last line at the new voltage,
the new line goes through what is returned, at the voltage handed in -/
noncomputable def Yj.doTr (p : Par) (init : Bool) (volts : ℝ) (s : Yj) : Yj :=
  let y := p.evalYj init s.region s.y1f0 (s.c1 * volts + s.c0) volts
  ⟨y.f0 - volts * y.f1, y.f1, y.f0, y.region⟩

/-! ## capacitor -/

/-- One junction capacitance (d_diode.model:142-154, 155-167): `cj` adjusted, potential, grading, `fc` -/
noncomputable def junction (cj pb mj fc volts : ℝ) : ℝ :=
  if cj ≠ 0 then
    if volts < fc * pb then cj / (1 - volts / pb) ^ mj
    else cj / (1 - fc) ^ (1 + mj) * (1 - fc * (1 + mj) + volts / pb * mj)
  else 0

/-- parameters of `eval Cj` -/
structure CPar where
  cj : ℝ
  pb : ℝ
  mj : ℝ
  cjsw : ℝ
  pbsw : ℝ
  mjsw : ℝ
  fc : ℝ
  tt : ℝ

/-- the capacitance (d_diode.model:139-177); `gd` is `_gd` -/
noncomputable def CPar.cap (c : CPar) (gd volts : ℝ) : ℝ :=
  junction c.cj c.pb c.mj c.fc volts + junction c.cjsw c.pbsw c.mjsw c.fc volts + (if c.tt ≠ 0 then gd * c.tt else 0)

/-- `eval Cj`, the charge (d_diode.model:178-187): from `_y[1]` in a transient step, else voltage times capacitance -/
noncomputable def CPar.charge (c : CPar) (gd volts : ℝ) (prev : Option (ℝ × ℝ × ℝ)) : ℝ :=
  match prev with
  | some (x1, q1, c1) => (volts - x1) * ((c.cap gd volts + c1) / 2) + q1
  | none => volts * c.cap gd volts

end Gnucap.Diode
