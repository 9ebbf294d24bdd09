import Mathlib.Algebra.Order.Field.Basic

/-! The semiconductor resistor and capacitor (claim C87): apps/bmm_semi.cc, values from length, width and
temperature.  Exact arithmetic in an ordered field; `none` is a parameter that was not given.

Not modelled: reading and listing the parameters, the finite range of numbers. -/

namespace Gnucap.Semi

variable {F : Type} [Field F] [LinearOrder F] [IsStrictOrderedRing F]

/-- The parameters that the two models share, evaluated: `MODEL_SEMI_BASE`, apps/bmm_semi.cc:89-113 with the
defaults 366-369 and `precalc_first`, 444-455; `tnom` from lib/e_model.cc:101-105. -/
structure Base (F : Type) where
  narrow : F
  defw : F
  tc1 : F
  tc2 : F
  tnom : F

/-- `_cj`, `_cjsw`: apps/bmm_semi.cc:115-138, 522-531. -/
structure CapModel (F : Type) extends Base F where
  cj : F
  cjsw : F

/-- `_rsh`: apps/bmm_semi.cc:140-161; it has no default (534). -/
structure ResModel (F : Type) extends Base F where
  rsh : Option F

/-- A device: `_length`, `_width` (apps/bmm_semi.cc:31-35), the value on its line (`_value`, 0 if not given,
lib/e_compon.cc:277) and its temperature (lib/e_compon.cc:276). -/
structure Dev (F : Type) where
  length : Option F
  width : Option F
  value : Option F
  temp : F

inductive Out (F : Type) where
  | value (x : F)
  | badWidth
  | badLength

/-- apps/bmm_semi.cc:288-289 and 336-337. -/
def effWidth (m : Base F) (d : Dev F) : F := d.width.getD m.defw - m.narrow

/-- apps/bmm_semi.cc:290 and 338; `_default_length` is `NOT_INPUT` (163). -/
def effLength (notInput : F) (m : Base F) (d : Dev F) : F := d.length.getD notInput - m.narrow

/-- apps/bmm_semi.cc:292-293 and 348-349. -/
def tempFactor (m : Base F) (d : Dev F) : F :=
  let tempdiff := d.temp - m.tnom
  1 + m.tc1 * tempdiff + m.tc2 * tempdiff * tempdiff

/-- `EVAL_BM_SEMI_CAPACITOR::precalc_last`, apps/bmm_semi.cc:281-303. -/
def capacitor (notInput : F) (m : CapModel F) (d : Dev F) : Out F :=
  let w := effWidth m.toBase d
  let l := effLength notInput m.toBase d
  let v := m.cj * l * w + 2 * m.cjsw * (l + w)
  let v := v * tempFactor m.toBase d
  if w ≤ 0 then .badWidth else if l ≤ 0 then .badLength else .value v

/-- `EVAL_BM_SEMI_RESISTOR::precalc_last`, apps/bmm_semi.cc:329-363. -/
def resistor (notInput bigbig : F) (m : ResModel F) (d : Dev F) : Out F :=
  let w := effWidth m.toBase d
  let l := effLength notInput m.toBase d
  let v := match m.rsh with
    | none => d.value.getD 0
    | some rsh => if w ≠ 0 then rsh * l / w else bigbig
  let v := v * tempFactor m.toBase d
  match m.rsh with
  | some _ => if w ≤ 0 then .badWidth else if l ≤ 0 then .badLength else .value v
  | none => .value v

end Gnucap.Semi
