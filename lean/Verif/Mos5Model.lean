import Verif.MosModel
import Mathlib.Analysis.SpecialFunctions.Sqrt
import Mathlib.Analysis.SpecialFunctions.Exp

/-!
# Mosfet, level 5 (BSIM2): current and slopes (model)

`tr_eval` of d_mos5.model (206-590) after `reverse_if_needed`; turning round at 767-774 as in the other levels; what surrounds it is `MosModel`.  Real arithmetic.  The
charges (591-766) are not modelled: nothing reads them (d_mos.model:86-108 has other states, and `cmodel` is never 0, d_mos5.model:47-48).
-/
namespace Gnucap.Mos

/-- Parameters of the size (d_mos5.model:87-179), `vdd`, `vgg`, `vbb` and `Vtm` of the model (59-64, 82) -/
structure P5 where
  phi : ℝ
  vfb : ℝ
  k1 : ℝ
  k2 : ℝ
  eta0 : ℝ
  etaB : ℝ
  ua0 : ℝ
  uaB : ℝ
  ub0 : ℝ
  ubB : ℝ
  u10 : ℝ
  u1B : ℝ
  u1D : ℝ
  n0 : ℝ
  nB : ℝ
  nD : ℝ
  vof0 : ℝ
  vofB : ℝ
  vofD : ℝ
  ai0 : ℝ
  aiB : ℝ
  bi0 : ℝ
  biB : ℝ
  vghigh : ℝ
  vglow : ℝ
  beta0 : ℝ
  beta0B : ℝ
  betas0 : ℝ
  betasB : ℝ
  beta20 : ℝ
  beta2B : ℝ
  beta2G : ℝ
  beta30 : ℝ
  beta3B : ℝ
  beta3G : ℝ
  beta40 : ℝ
  beta4B : ℝ
  beta4G : ℝ
  vdd : ℝ
  vgg : ℝ
  vbb : ℝ
  vtm : ℝ

/-- a value and its slopes with `Vgs`, `Vds`, `Vbs` -/
structure Jet where
  v : ℝ
  g : ℝ
  d : ℝ
  b : ℝ

/-- `Phisb`, `dPhisb_dVb` (d_mos5.model:221-236) -/
noncomputable def P5.phisb (p : P5) (b : ℝ) : ℝ × ℝ :=
  if b ≤ 0 then (p.phi - b, -1) else (p.phi * (p.phi / (p.phi + b)), -(p.phi / (p.phi + b)) * (p.phi / (p.phi + b)))

/-- `T1s`, `dT1s_dVb` (d_mos5.model:221-236); `Phis3` (180) -/
noncomputable def P5.t1s (p : P5) (b : ℝ) : ℝ × ℝ :=
  if b ≤ 0 then (Real.sqrt (p.phi - b), -(1 / 2) / Real.sqrt (p.phi - b))
  else
    let p3 := Real.sqrt p.phi * p.phi
    let t := p3 / (p.phi + 1 / 2 * b)
    (t, -(1 / 2) * t * t / p3)

/-- `von`, `dVth_dVd`, `dVth_dVb` (d_mos5.model:238, 244-246) -/
noncomputable def P5.von (p : P5) (d b : ℝ) : Jet :=
  let eta := p.eta0 + p.etaB * b
  ⟨p.vfb + p.phi + p.k1 * (p.t1s b).1 - p.k2 * (p.phisb b).1 - eta * d, 0, -eta, p.k1 * (p.t1s b).2 + p.k2 - p.etaB * d⟩

/-- `Aa`, `dAa_dVb` (d_mos5.model:250-262) -/
noncomputable def P5.aa (p : P5) (b : ℝ) : ℝ × ℝ :=
  let tmp := 1 / (1744 / 1000 + 8364 / 10000 * (p.phisb b).1)
  let gg := 1 - tmp
  let dgg := 8364 / 10000 * tmp * tmp * (p.phisb b).2
  let a := 1 + 1 / 2 * (gg / (p.t1s b).1) * p.k1
  (a, (a - 1) * (dgg / gg - (p.t1s b).2 / (p.t1s b).1))

/-- where `vgst` is (d_mos5.model:267, 291) -/
inductive Range where
  | high | mid | low
  deriving DecidableEq

open Classical in
/-- d_mos5.model:267, 291 -/
noncomputable def P5.range (p : P5) (u : ℝ) : Range := if p.vghigh ≤ u ∨ p.n0 = 0 then .high else if u ≤ p.vglow then .low else .mid

/-- `n`, `Vof` (d_mos5.model:277-278) -/
noncomputable def P5.n (p : P5) (d b : ℝ) : ℝ := p.n0 + p.nB / (p.t1s b).1 + p.nD * d
noncomputable def P5.vof (p : P5) (d b : ℝ) : ℝ := p.vof0 + p.vofB * b + p.vofD * d

/-- `Exp1` (d_mos5.model:282-284) -/
noncomputable def P5.exp1 (p : P5) (d : ℝ) : ℝ := Real.exp (max (-d / p.vtm) (-30))

/-- `Exp0` with `u` the voltage above threshold or `vglow` (d_mos5.model:279, 292-294, 305-307) -/
noncomputable def P5.exp0 (p : P5) (u d b : ℝ) : ℝ := Real.exp (1 / 2 * p.vof d b + max (u * (1 / 2 / (p.n d b * p.vtm))) (-30))

/-- `Vgeff` and slopes (d_mos5.model:266-361), `u` is `vgst` -/
noncomputable def P5.vgeff (p : P5) (r : Range) (u d b : ℝ) : Jet :=
  let th := p.von d b
  let t := p.t1s b
  let a := p.aa b
  let n := p.n d b
  let tmp := 1 / 2 / (n * p.vtm)
  let tmp1 := max (1 - p.exp1 d) (1 / 10 ^ 18)
  match r with
  | .high => ⟨u, 1, -th.d, -th.b⟩
  | .low =>
    let v := Real.sqrt (2 * a.1 * tmp1) * p.vtm * p.exp0 u d b
    let t0 := n * p.vtm
    let vg := v * tmp
    ⟨v, vg, vg * (n / tmp1 * p.exp1 d - th.d - u * p.nD / n + t0 * p.vofD),
      vg * (p.vofB * t0 - th.b + p.nB * u / (n * t.1 * t.1) * t.2 + t0 * (1 / a.1) * a.2)⟩
  | .mid =>
    let con3 := Real.sqrt (2 * a.1 * (1 - p.exp1 d)) * p.vtm * p.exp0 p.vglow d b
    let con4 := con3 * tmp
    let h := p.vghigh
    let l := p.vglow
    let t0 := 2 * h
    let t1 := 2 * l
    let t2 := 3 * (h * h)
    let t3 := 3 * (l * l)
    let t4 := h - l
    let t5 := h * h - l * l
    let t6 := h * (h * h) - l * (l * l)
    let t7 := h - con3
    let delta := 1 / ((t1 - t0) * t6 + (t2 - t3) * t5 + (t0 * t3 - t1 * t2) * t4)
    let cb := (t1 - con4 * t0) * t6 + (con4 * t2 - t3) * t5 + (t0 * t3 - t1 * t2) * t7
    let cc := (con4 - 1) * t6 + (t2 - t3) * t7 + (t3 - con4 * t2) * t4
    let cd := (t1 - t0) * t7 + (1 - con4) * t5 + (con4 * t0 - t1) * t4
    let ca := h * h * (cc + cd * t0)
    let vg := (cb + u * (2 * cc + 3 * u * cd)) * delta
    let t7 := con3 * tmp
    let t8 := t.2 * p.nB / (t.1 * t.1 * n)
    let t9 := n * p.vtm
    let con3d := t7 * (n * p.exp1 d / tmp1 - l * p.nD / n + t9 * p.vofD)
    let con3b := t7 * (t9 * (1 / a.1) * a.2 + l * t8 + t9 * p.vofB)
    let con4d := tmp * con3d - t7 * p.nD / n
    let con4b := tmp * con3b + t7 * t8
    let slope := fun con3x con4x =>
      let bx := con4x * (t2 * t5 - t0 * t6) + con3x * (t1 * t2 - t0 * t3)
      let cx := con4x * (t6 - t2 * t4) + con3x * (t3 - t2)
      let dx := con4x * (t0 * t4 - t5) + con3x * (t0 - t1)
      let ax := h * h * (cx + dx * t0)
      ax + u * (bx + u * (cx + u * dx))
    ⟨(ca + u * (cb + u * (cc + u * cd))) * delta, vg, -vg * th.d + slope con3d con4d * delta, -vg * th.b + slope con3b con4b * delta⟩

/-- `Uvert` and slopes (d_mos5.model:239-240, 368-379) -/
noncomputable def P5.uvert (p : P5) (w : Jet) (b : ℝ) : Jet :=
  let ua := p.ua0 + p.uaB * b
  let ub := p.ub0 + p.ubB * b
  let t8 := ua + 2 * ub * w.v
  ⟨max (1 + w.v * (ua + w.v * ub)) (1 / 5), t8 * w.g, t8 * w.d, t8 * w.b + w.v * (p.uaB + w.v * p.ubB)⟩

/-- `Vc` and slopes (d_mos5.model:241, 381-394) -/
noncomputable def P5.vc (p : P5) (w m : Jet) (b : ℝ) : Jet :=
  let a := p.aa b
  let t8 := (p.u10 + p.u1B * b) * (1 / a.1) * (1 / m.v)
  let v := t8 * w.v
  let t9 := v * (1 / m.v)
  ⟨v, t8 * w.g - t9 * m.g, t8 * w.d - t9 * m.d, t8 * w.b + p.u1B * w.v * (1 / a.1) * (1 / m.v) - v * (1 / a.1) * a.2 - t9 * m.b⟩

/-- `Kk`, `dKk_dVc` (d_mos5.model:396-402) -/
noncomputable def kk5 (vc : ℝ) : ℝ × ℝ := (1 / 2 * (1 + vc + Real.sqrt (1 + 2 * vc)), 1 / 2 + 1 / 2 / Real.sqrt (1 + 2 * vc))

/-- `vdsat` and slopes (d_mos5.model:404-413) -/
noncomputable def P5.vdsat (p : P5) (w c : Jet) (b : ℝ) : Jet :=
  let a := p.aa b
  let k := kk5 c.v
  let t8 := 1 / a.1 / Real.sqrt k.1
  let v := max (w.v * t8) (1 / 10 ^ 18)
  let t9 := 1 / 2 * v * k.2 / k.1
  ⟨v, t8 * w.g - t9 * c.g, t8 * w.d - t9 * c.d, t8 * w.b - t9 * c.b - v * (1 / a.1) * a.2⟩

/-- `Beta` and slopes (d_mos5.model:415-454), `Arg` (202) -/
noncomputable def P5.beta (p : P5) (s : Jet) (g d b : ℝ) : Jet :=
  let b0 := p.beta0 + p.beta0B * b
  let bs := p.betas0 + p.betasB * b
  let b2 := p.beta20 + p.beta2B * b + p.beta2G * g
  let b3 := p.beta30 + p.beta3B * b + p.beta3G * g
  let b4 := p.beta40 + p.beta4B * b + p.beta4G * g
  let b1 := bs - (b0 + p.vdd * (b3 - p.vdd * b4))
  let t0 := min (d * b2 / s.v) 30
  let t1 := Real.exp t0
  let t2 := t1 * t1
  let t3 := t2 + 1
  let th := (t2 - 1) / t3
  let sech := 4 * t2 / (t3 * t3)
  let t4 := b1 * sech / s.v
  let t5 := p.vdd * th
  let arg := p.betasB - p.beta0B - p.vdd * (p.beta3B - p.vdd * p.beta4B)
  ⟨b0 + b1 * th + d * (b3 - b4 * d), t4 * (p.beta2G * d - t0 * s.g) + p.beta3G * (d - t5) - p.beta4G * (d * d - p.vdd * t5),
    b3 - 2 * b4 * d + t4 * (b2 - t0 * s.d), p.beta0B + arg * th + d * (p.beta3B - d * p.beta4B) + t4 * (p.beta2B * d - t0 * s.b)⟩

/-- `FR` and slopes (d_mos5.model:498-509, 544-556) -/
noncomputable def P5.fr (p : P5) (s : Jet) (d b : ℝ) : Jet :=
  let ai := p.ai0 + p.aiB * b
  let bi := p.bi0 + p.biB * b
  let t5 := min (bi / (d - s.v)) 30
  let t6 := Real.exp (-t5)
  let fr := 1 + ai * t6
  let t7 := t5 / (d - s.v)
  let t8 := (1 - fr) * t7
  ⟨fr, t8 * s.g, t8 * (s.d - 1), t8 * s.b + t6 * (p.aiB - ai * p.biB / (d - s.v))⟩

/-- the triode region (d_mos5.model:458-485) -/
noncomputable def P5.triode (p : P5) (w m s e : Jet) (d b : ℝ) : Jet :=
  let a := p.aa b
  let u1s := p.u10 + p.u1B * b
  let t3 := d / s.v
  let t4 := t3 - 1
  let t2 := 1 - p.u1D * t4 * t4
  let u1 := u1s * t2
  let utot := max (m.v + u1 * d) (1 / 2)
  let t5 := 2 * u1s * p.u1D * t4 / s.v
  let u1d := t5 * (t3 * s.d - 1)
  let u1g := t5 * t3 * s.g
  let u1b := t5 * t3 * s.b + p.u1B * t2
  let ud := m.d + u1 + d * u1d
  let ug := m.g + d * u1g
  let ub := m.b + d * u1b
  let tmp1 := w.v - 1 / 2 * a.1 * d
  let be := e.v * (1 / utot)
  let ids := be * (tmp1 * d)
  let t6 := ids / be * (1 / utot)
  ⟨ids, t6 * (e.g - be * ug) + be * d * w.g, t6 * (e.d - be * ud) + be * (tmp1 + (w.d - 1 / 2 * a.1) * d),
    t6 * (e.b - be * ub) + be * d * (w.b - 1 / 2 * d * a.2)⟩

/-- saturation (d_mos5.model:486-527) -/
noncomputable def P5.sat (p : P5) (w m c s e : Jet) (d b : ℝ) : Jet :=
  let a := p.aa b
  let k := kk5 c.v
  let tmp1 := w.v * (1 / a.1) * (1 / k.1)
  let be := e.v * (1 / m.v)
  let ids := be * (1 / 2 * w.v * tmp1)
  let t0 := ids / be * (1 / m.v)
  let t1 := be * w.v * (1 / a.1) * (1 / k.1)
  let t2 := ids * (1 / k.1) * k.2
  let g := t0 * (e.g - be * m.g) + t1 * w.g - t2 * c.g
  let dd := t0 * (e.d - be * m.d) + t1 * w.d - t2 * c.d
  let bb := t0 * (e.b - be * m.b) + t1 * w.b - t2 * c.b - ids * (1 / a.1) * a.2
  if p.ai0 ≠ 0 then
    let f := p.fr s d b
    ⟨ids * f.v, g * f.v + ids * f.g, dd * f.v + ids * f.d, bb * f.v + ids * f.b⟩
  else ⟨ids, g, dd, bb⟩

/-- below `vglow` (d_mos5.model:528-573) -/
noncomputable def P5.weak (p : P5) (s e : Jet) (u d b : ℝ) : Jet :=
  let th := p.von d b
  let t := p.t1s b
  let n := p.n d b
  let t0 := p.exp0 u d b * p.exp0 u d b
  let t1 := p.exp1 d
  let ids := e.v * p.vtm * p.vtm * t0 * (1 - t1)
  let t2 := ids / e.v
  let t4 := n * p.vtm
  let t3 := ids / t4
  let f : Jet := if s.v < d ∧ p.ai0 ≠ 0 then p.fr s d b else ⟨1, 0, 0, 0⟩
  ⟨ids * f.v, (t2 * e.g + t3) * f.v + ids * f.g, (t2 * e.d + t3 * (p.vofD * t4 - th.d - p.nD * u / n) + e.v * p.vtm * t0 * t1) * f.v + ids * f.d,
    (t2 * e.b + t3 * (p.vofB * t4 - th.b + p.nB * u / (n * t.1 * t.1) * t.2)) * f.v + ids * f.b⟩

/-- `tr_eval` between the limits (d_mos5.model:219-584): `none` is the assertion in 530 (`Exp0` was not made) -/
noncomputable def P5.core (p : P5) (g d b : ℝ) : Option (Jet × ℝ) :=
  let u := g - (p.von d b).v
  let r := p.range u
  let w := p.vgeff r u d b
  if 0 < w.v then
    let m := p.uvert w b
    let c := p.vc w m b
    let s := p.vdsat w c b
    let e := p.beta s g d b
    if p.vglow < u then
      if d ≤ s.v then some (p.triode w m s e d b, s.v) else some (p.sat w m c s e d b, s.v)
    else if r = .high then none
    else some (p.weak s e u d b, s.v)
  else some (⟨0, 0, 0, 0⟩, 0)

/-- `tr_eval` (d_mos5.model:214-216, 588-590): the voltages limited, current and `gds` held up -/
noncomputable def P5.eval (p : P5) (vgs vds vbs : ℝ) : Option Out :=
  let b := max (2 * p.vbb) vbs
  let g := min (2 * p.vgg) vgs
  let d := min (2 * p.vdd) vds
  (p.core g d b).map fun x =>
    { ids := max x.1.v (1 / 10 ^ 50), gds := max x.1.d (1 / 10 ^ 20), gm := x.1.g, gmb := x.1.b,
      von := (p.von d b).v, vgst := g - (p.von d b).v, vdsat := x.2 }

end Gnucap.Mos
