import Mathlib.Algebra.Order.Field.Basic

/-!
# Gate capacitances of a mosfet (model)

Models `eval Cgb`, `eval Cgd`, `eval Cgs` of d_mos.model (Meyer).  Exact arithmetic.
-/
namespace Gnucap.Meyer

/-- What is looked at (d_mos.model:311-440): `reversed`, `vgst`, `vdsat`, `vds`, `vbs` of the device, in the direction it works -/
structure Bias (F : Type _) where
  reversed : Bool
  vgst : F
  vdsat : F
  vds : F
  vbs : F

/-- `cmodel` (0: overlap only, 3: bulk taken as source), `phi`, `cgate` and the overlap capacitances (the value of each) -/
structure Par (F : Type _) where
  cmodel : ℕ
  phi : F
  cgate : F
  cgso : F
  cgdo : F
  cgbo : F

section
variable {F : Type _} [Field F] [LinearOrder F]

/-- `eval Cgb` (d_mos.model:315-324) -/
def Par.cgb (p : Par F) (b : Bias F) : F :=
  if p.cmodel ≠ 0 then
    if b.vgst < -p.phi then p.cgbo + p.cgate
    else if b.vgst < 0 then p.cgbo + p.cgate * (-b.vgst) / p.phi
    else p.cgbo
  else p.cgbo

/-- `vdbsat`, `ddif` (d_mos.model:344-347, 393-396) -/
def Par.vb (p : Par F) (b : Bias F) : F := if p.cmodel = 3 then 0 else b.vbs
def Par.vdbsat (p : Par F) (b : Bias F) : F := b.vdsat - p.vb b
def Par.ddif (p : Par F) (b : Bias F) : F := 2 * p.vdbsat b - (b.vds - p.vb b)

/-- the end that works as drain (d_mos.model:350-357, 399-406) -/
def Par.drainEnd (p : Par F) (b : Bias F) : F :=
  if 0 ≤ b.vgst then
    if b.vds < b.vdsat then
      let cap := 2 / 3 * p.cgate * (1 - p.vdbsat b * p.vdbsat b / (p.ddif b * p.ddif b))
      if b.vgst ≤ 1 / 10 then cap * (10 * b.vgst) else cap
    else 0
  else 0

/-- the end that works as source (d_mos.model:359-368, 408-417) -/
def Par.sourceEnd (p : Par F) (b : Bias F) : F :=
  if -p.phi / 2 ≤ b.vgst then
    let cap := 2 / 3 * p.cgate
    let cap :=
      if b.vds < b.vdsat then
        let ndif := b.vdsat - b.vds
        cap * (1 - ndif * ndif / (p.ddif b * p.ddif b))
      else cap
    if b.vgst ≤ 0 then cap * (1 + b.vgst / p.phi) * (1 + b.vgst / p.phi) else cap
  else 0

/-- `eval Cgd` (d_mos.model:336-372) -/
def Par.cgd (p : Par F) (b : Bias F) : F :=
  (if p.cmodel ≠ 0 then (if b.reversed then p.sourceEnd b else p.drainEnd b) else 0) + p.cgdo

/-- `eval Cgs` (d_mos.model:385-421) -/
def Par.cgs (p : Par F) (b : Bias F) : F :=
  (if p.cmodel ≠ 0 then (if b.reversed then p.drainEnd b else p.sourceEnd b) else 0) + p.cgso

/-- charge (d_mos.model:325-328, 374-377, 423-426, in a transient): voltage, charge, capacitance of the last step, then the new voltage and capacitance -/
def charge (last : F × F × F) (x c : F) : F := (x - last.1) * ((c + last.2.2) / 2) + last.2.1

/-- the charge after a number of steps of a transient -/
def charges (last : F × F × F) : List (F × F) → F
  | [] => last.2.1
  | (x, c) :: l => charges (x, charge last x c, c) l

/-- `vgst`, `vdsat`, direction from the voltages of gate, drain, source, for level 1 with a fixed threshold (d_mos1.model:137-140,
reverse_if_needed, d_mos.model:434-456), bulk at the source -/
def bias (vto vg vd vs : F) : Bias F :=
  if vd < vs then ⟨true, vg - vd - vto, max (vg - vd - vto) 0, vs - vd, 0⟩
  else ⟨false, vg - vs - vto, max (vg - vs - vto) 0, vd - vs, 0⟩

end
end Gnucap.Meyer
