import Mathlib.Analysis.Real.Sqrt

/-!
# Parameters that depend on the size, levels 4 and 5

`SDP` (u_sdp.h:35-73), the generated `SDP_BUILT_IN_MOS4::init` and `SDP_BUILT_IN_MOS5::init` (mg_out_model.cc:56-112,
d_mos4.model:52-143, d_mos5.model:52-203) behind `SDP_BUILT_IN_MOS_BASE::init` (d_mos_base.model:149-174).

`quiet_min` and `positive` of a parameter have no effect: the former is written as a comment (mg_out_lib.cc:51-60, 106-115), the
latter not at all.

A parameter that is not on the card is `none`.  A division by 0 or a root of a negative number makes the result `none`.  Not
modelled: parameters that only go through `SDP` and are used as they are, texts without a value, rounding.
-/

namespace Gnucap.BsimSize

/-- u_sdp.h:38-41 -/
structure Sdp where
  nom : Option ℝ := none
  l : Option ℝ := none
  w : Option ℝ := none
  p : Option ℝ := none

/-- `operator()` (u_sdp.h:49-52), sizes in microns -/
noncomputable def Sdp.at (s : Sdp) (L W d : ℝ) : ℝ :=
  s.nom.getD d + s.l.getD 0 / L + s.w.getD 0 / W + s.p.getD 0 / (W * L)

/-- the parameters used below by the names on the card (d_mos4.model:78-102, d_mos5.model:86-112) -/
inductive Name where
  | PHI | VFB | K1 | K2 | MUZ | X2MZ | MUS | X2MS | X3MS | MU0 | MU0B
  | MUS0 | MUSB | MU20 | MU2B | MU2G | MU30 | MU3B | MU3G | MU40 | MU4B | MU4G
  deriving DecidableEq

/-- the card: what both levels have (d_mos4.model:52-60, d_mos5.model:52-65; d_mos_base.model:85-87) -/
structure Card where
  dl : Option ℝ := none
  dw : Option ℝ := none
  tox : Option ℝ := none
  vdd : Option ℝ := none
  vbb : Option ℝ := none
  cgso : ℝ := 0
  cgdo : ℝ := 0
  cgbo : ℝ := 0
  /-- what the card says of them -/
  sdp : Name → Sdp := fun _ => {}

/-- what both levels make of the size before their own parameters -/
structure Eff where
  l : ℝ
  w : ℝ
  /-- sizes in microns -/
  L : ℝ
  W : ℝ
  cgate : ℝ
  coxWoverL : ℝ
  cgso : ℝ
  cgdo : ℝ
  cgbo : ℝ

/-- `l_eff`, `w_eff` of the base class are `l`, `w`; the overlaps are taken there (d_mos_base.model:171-173), then `code_pre`
(d_mos4.model:133-142, d_mos5.model:185-195).  `dl`, `dw`, `tox`, `cox`: d_mos4.model:71-74, d_mos5.model:75-78; MICRON2METER is
1e-6 (constant.h:85) -/
noncomputable def Card.eff (c : Card) (l w : ℝ) : Option Eff :=
  let tox := c.tox.getD 0 * 1e-6
  let le := l - c.dl.getD 0 * 1e-6
  let we := w - c.dw.getD 0 * 1e-6
  if tox = 0 ∨ le = 0 ∨ we = 0 then none
  else
    let cox := 3.453e-11 / tox
    some { l := le, w := we, L := le / 1e-6, W := we / 1e-6, cgate := cox * we * le, coxWoverL := 1e-4 * cox * we / le
           cgso := c.cgso * w, cgdo := c.cgdo * w, cgbo := c.cgbo * l }

/-- a parameter by name, default 0 -/
noncomputable def Card.val (c : Card) (e : Eff) (n : Name) : ℝ := (c.sdp n).at e.L e.W 0

/-- level 4 (d_mos4.model:120-132) -/
structure Four where
  betaZero : ℝ
  betaZeroB : ℝ
  betaVdd : ℝ
  betaVddB : ℝ
  betaVddD : ℝ
  vt0 : ℝ

noncomputable def Card.four (c : Card) (e : Eff) : Option Four :=
  let phi := c.val e .PHI
  if phi < 0 then none
  else some
    { betaZero := c.val e .MUZ * e.coxWoverL
      betaZeroB := c.val e .X2MZ * e.coxWoverL
      betaVdd := c.val e .MUS * e.coxWoverL
      betaVddB := c.val e .X2MS * e.coxWoverL
      betaVddD := c.val e .X3MS * e.coxWoverL
      vt0 := c.val e .VFB + phi + c.val e .K1 * Real.sqrt phi - c.val e .K2 * phi }

/-- level 5 (d_mos5.model:153-184) -/
structure Five where
  beta0 : ℝ
  beta0B : ℝ
  betas0 : ℝ
  betasB : ℝ
  beta20 : ℝ
  beta2B : ℝ
  beta2G : ℝ
  beta30 : ℝ
  beta3B : ℝ
  beta3G : ℝ
  beta40 : ℝ
  beta4B : ℝ
  beta4G : ℝ
  arg : ℝ

/-- `code_post` (d_mos5.model:196-203): `betasB`, none is a division by 0 -/
noncomputable def limitB (vbb b0 b0B bs bsB : ℝ) : Option ℝ :=
  let tmp := bs - b0 - b0B * vbb
  if -bsB * vbb > tmp then if vbb = 0 then none else some (-tmp / vbb) else some bsB

noncomputable def Card.five (c : Card) (e : Eff) : Option Five :=
  let k := e.coxWoverL
  let vbb := c.vbb.getD 0
  let vdd := c.vdd.getD 0
  let b0 := c.val e .MU0 * k
  let b0B := c.val e .MU0B * k
  let bs := c.val e .MUS0 * k
  let b3B := c.val e .MU3B * k
  let b4B := c.val e .MU4B * k
  (limitB vbb b0 b0B bs (c.val e .MUSB * k)).map fun bsB =>
    { beta0 := b0, beta0B := b0B, betas0 := bs, betasB := bsB
      beta20 := c.val e .MU20, beta2B := c.val e .MU2B, beta2G := c.val e .MU2G
      beta30 := c.val e .MU30 * k, beta3B := b3B, beta3G := c.val e .MU3G * k
      beta40 := c.val e .MU40 * k, beta4B := b4B, beta4G := c.val e .MU4G * k
      arg := bsB - b0B - vdd * (b3B - vdd * b4B) }

end Gnucap.BsimSize
