import Verif.BjtModel
import Mathlib.Analysis.SpecialFunctions.Trigonometric.Basic

/-!
# The base of a bipolar transistor

What a card makes of its saturation currents, its Early voltages and its corner currents (d_bjt.model:226-276, 335-342, in the order
of the generated `precalc_first`, mg_out_model.cc:292-310, mg_out_lib.cc:26-142), and the resistance from the outer base to the
inner one (d_bjt.model:72-73, 545-575).

A parameter that is not on the card is `none`; `e_val` does not write to the card here, so an analysis leaves it as it was.  Not
modelled: texts without a value, `i_s` where it is not given (it is only listed), rounding.
-/

namespace Gnucap.BjtBase

/-- the card, as far as it is used here -/
structure Card where
  is : Option ℝ := none
  ibe : Option ℝ := none
  ibc : Option ℝ := none
  ise : Option ℝ := none
  isc : Option ℝ := none
  c2 : Option ℝ := none
  c4 : Option ℝ := none
  vaf : Option ℝ := none
  var : Option ℝ := none
  ikf : Option ℝ := none
  ikr : Option ℝ := none
  irb : Option ℝ := none
  rb : Option ℝ := none
  rbm : Option ℝ := none

/-- what the equations use; `irb` stays a parameter that may not be there -/
structure Vals where
  ibc : ℝ
  ibe : ℝ
  isc : ℝ
  ise : ℝ
  invearlyvoltf : ℝ
  invearlyvoltr : ℝ
  invrollofff : ℝ
  invrolloffr : ℝ
  irb : Option ℝ
  rb : ℝ
  rbm : ℝ

/-- `(has_nz_value(x)) ? 1./x : 0.` (d_bjt.model:335-342, u_parameter.h:217-221) -/
noncomputable def inv : Option ℝ → ℝ
  | none => 0
  | some x => if x ≠ 0 then 1 / x else 0

/-- `precalc_first` (d_bjt.model:226-231 for `ibc`, `ibe`; 255-262 for `isc`, `c4`, `ise`, `c2`; 272-276 for the resistances) -/
noncomputable def Card.vals (k : Card) : Vals :=
  let c4 := k.c4.getD 0
  let c2 := k.c2.getD 0
  let rb := k.rb.getD 0
  let ibc := k.ibc.getD (match k.is with | some x => x | none => 1e-16)
  let ibe := k.ibe.getD (match k.is with | some x => x | none => 1e-16)
  { ibc, ibe, isc := k.isc.getD (c4 * ibc), ise := k.ise.getD (c2 * ibe)
    invearlyvoltf := inv k.vaf, invearlyvoltr := inv k.var
    invrollofff := inv k.ikf, invrolloffr := inv k.ikr
    irb := k.irb, rb, rbm := k.rbm.getD rb }

/-- `oik`, `oikr` of a device (d_bjt.model:195-196) -/
noncomputable def Vals.oik (v : Vals) (area : ℝ) : ℝ := v.invrollofff / area
noncomputable def Vals.oikr (v : Vals) (area : ℝ) : ℝ := v.invrolloffr / area

/-- `arg2` (d_bjt.model:562) -/
noncomputable def angle (a : ℝ) : ℝ := (-1 + Real.sqrt (1 + 14.59025 * a)) / 2.4317 / Real.sqrt a

/-- `rx` where `irb` is there (d_bjt.model:557-564) -/
noncomputable def crowd (rbpr rbpi a : ℝ) : ℝ :=
  let z := angle a
  let t := Real.tan z
  rbpr + 3 * rbpi * (t - z) / z / t / t

/-- `rx` (d_bjt.model:554-567); `cb` is `cpi + cmu` -/
noncomputable def Vals.rx (v : Vals) (area qb cb : ℝ) : ℝ :=
  let rbpr := v.rbm / area
  let rbpi := v.rb / area - rbpr
  match v.irb with
  | none => rbpr + rbpi / qb
  | some i => if i ≠ 0 then crowd rbpr rbpi (max (cb / (i * area)) 1e-9) else rbpr + rbpi / qb

/-- what becomes of `Yb` -/
inductive Gx where
  /-- the element is not there (d_bjt.model:73, 550-552) -/
  | absent
  /-- `assert(rx != 0.)` (d_bjt.model:570); without it an infinite conductance -/
  | stop
  | cond (g : ℝ)

/-- `gx` (d_bjt.model:549-573) -/
noncomputable def Vals.gx (v : Vals) (rstray : Bool) (area qb cb : ℝ) : Gx :=
  if rstray = false ∨ (v.rb = 0 ∧ v.rbm = 0) then .absent
  else if v.rx area qb cb = 0 then .stop
  else .cond (1 / v.rx area qb cb)

/-- the saturation currents and corner currents of a device for `tr_eval` (d_bjt.model:194-197, 354-365, 430-432, 464-466) at the nominal temperature,
the emission coefficients and gains being `p`'s -/
noncomputable def Vals.par (v : Vals) (area : ℝ) (p : Bjt.Par) : Bjt.Par :=
  { p with ise := v.ibe * area, isc := v.ibc * area, leakE := v.ise * area, leakC := v.isc * area
           ivaf := v.invearlyvoltf, ivar := v.invearlyvoltr, oik := v.oik area, oikr := v.oikr area }

/-- the current through `Yb` from the outer base to the inner one (d_bjt.model:72, d_poly_g.cc:191-199, `ixxxx` is 0) -/
noncomputable def Gx.current (vb vib : ℝ) : Gx → Option ℝ
  | .cond g => some (g * (vb - vib))
  | _ => none

/-- `tr_eval` for the base: `qb` and `cb` are those of the currents (d_bjt.model:495-513, 455-457, 488-490, 559) -/
noncomputable def Vals.eval (v : Vals) (rstray : Bool) (area : ℝ) (p : Bjt.Par) (vbe vbc : ℝ) : Gx :=
  let q := v.par area p
  v.gx rstray area (q.base vbe vbc).qb ((q.currents vbe vbc).cpi + (q.currents vbe vbc).cmu)

end Gnucap.BjtBase
