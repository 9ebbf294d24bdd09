import Verif.Mos6Model

/-!
# Mosfet, level 3 (model)

`tr_eval` of d_mos3.model (134-458) after `reverse_if_needed`; temperature is as in level 6 (`phiAt`, `vbiAt`), what surrounds it is
`MosModel`.  Real arithmetic; a slope that comes from zero divided by zero makes a result of its own (`none`).
-/
namespace Gnucap.Mos

/-- Parameters: of the model (d_mos3.model:39-77), of the size (`leff weff`) and at temperature (`tphi vbi vt uo beta`, 113-122).
`short` is `short_channel`, `sub` is `do_subthreshold` (135-136), `vmax` is none if not given (137). -/
structure P3 where
  gamma : ℝ
  theta : ℝ
  eta : ℝ
  kappa : ℝ
  delta3 : ℝ
  alpha : ℝ
  xj : ℝ
  ld : ℝ
  cox : ℝ
  cfsox : ℝ
  short : Bool
  sub : Bool
  vmax : Option ℝ
  leff : ℝ
  weff : ℝ
  tphi : ℝ
  vbi : ℝ
  vt : ℝ
  uo : ℝ
  beta : ℝ

/-- what depends on the bulk only; `nan`: `dfbody` and `dqb` are not numbers -/
structure Body where
  sarg : ℝ
  vphis : ℝ
  dsarg : ℝ
  fbody : ℝ
  dfbody : ℝ
  qb : ℝ
  dqb : ℝ
  nan : Bool

/-- `sarg`, `v_phi_s`, `dsarg_dvbs` (d_mos3.model:145-161) -/
noncomputable def P3.sarg (p : P3) (vbs : ℝ) : ℝ × ℝ × ℝ :=
  if vbs ≤ 0 then (Real.sqrt (p.tphi - vbs), p.tphi - vbs, -(1 / 2) / Real.sqrt (p.tphi - vbs))
  else
    let s := Real.sqrt p.tphi / (vbs / (2 * p.tphi) + 1)
    (s, s * s, -(s * s) / (2 * p.tphi * Real.sqrt p.tphi))

/-- `fshort`, `dfs_dvbs` (d_mos3.model:167-189); `xd` is the root of `alpha` (73).  Without `nsub` it is zero, and line 182 divides
zero by zero (last component). -/
noncomputable def P3.fshort (p : P3) (sarg dsarg : ℝ) : ℝ × ℝ × Bool :=
  if p.short then
    let wp := Real.sqrt p.alpha * sarg
    let wpXj := wp / p.xj
    let wcXj := 631353 / 10000000 + 8013292 / 10000000 * wpXj + -(1110777 / 100000000) * wpXj * wpXj
    let ldXj := p.ld / p.xj
    let xjLe := p.xj / p.leff
    let arga := wcXj + ldXj
    let argc := wpXj / (wpXj + 1)
    let argb := Real.sqrt (1 - argc * argc)
    let dwp := Real.sqrt p.alpha * dsarg
    let darga := (8013292 / 10000000 + -(1110777 / 100000000) * (wpXj + wpXj)) * dwp / p.xj
    let fshort := 1 - xjLe * (arga * argb - ldXj)
    if argb * wp = 0 then (fshort, 0, true)
    else
      let dargb := -argc * argc * (1 - argc) * dwp / (argb * wp)
      (fshort, -xjLe * (darga * argb + arga * dargb), false)
  else (1, 0, false)

/-- body effect (d_mos3.model:164-203) -/
noncomputable def P3.body (p : P3) (vbs : ℝ) : Body :=
  let a := p.sarg vbs
  let f := p.fshort a.1 a.2.2
  let gammaFs := p.gamma * f.1
  let fbodys := gammaFs * (1 / 2) / (2 * a.1)
  let fnarrw := p.delta3 / p.weff
  { sarg := a.1
    vphis := a.2.1
    dsarg := a.2.2
    fbody := fbodys + fnarrw
    dfbody := -fbodys * a.2.2 / a.1 + fbodys * f.2.1 / f.1
    qb := gammaFs * a.1 + fnarrw * a.2.1
    dqb := gammaFs * a.2.2 + p.gamma * f.2.1 * a.1 - fnarrw
    nan := f.2.2 }

/-- static feedback (d_mos3.model:208) -/
noncomputable def P3.sigma (p : P3) : ℝ := p.eta * (815 / 10 ^ 24) / (p.cox * p.leff * p.leff * p.leff)

/-- `vth` (d_mos3.model:209-210) -/
noncomputable def P3.vthAt (p : P3) (b : Body) (vds : ℝ) : ℝ := p.vbi - p.sigma * vds + b.qb

/-- mobility (d_mos3.model:257-273) -/
structure Drive where
  vc : ℝ
  onfg : ℝ
  us : ℝ
  beta : ℝ
  fgG : ℝ
  fgD : ℝ
  fgB : ℝ

noncomputable def P3.drive (p : P3) (b : Body) (vgsx vds : ℝ) : Drive :=
  let vc := vgsx - p.vthAt b vds
  let onfg := p.theta * vc + 1
  let fgate := 1 / onfg
  let fgG := -p.theta * fgate * fgate
  { vc := vc, onfg := onfg, us := p.uo * fgate, beta := p.beta * fgate, fgG := fgG, fgD := -fgG * -p.sigma, fgB := -fgG * b.dqb }

/-- saturation voltage and its slopes (d_mos3.model:277-304); `onvdsc` is 0 if it is not valid -/
structure Sat where
  vdsat : ℝ
  g : ℝ
  d : ℝ
  b : ℝ
  onvdsc : ℝ

noncomputable def P3.satv (p : P3) (b : Body) (r : Drive) : Sat :=
  let onfbdy := 1 / (b.fbody + 1)
  let v0 := r.vc * onfbdy
  let (vdsat, dvsdga, g, onvdsc) :=
    match p.vmax with
    | some vm =>
      let vdsc := p.leff * vm / r.us
      let argb := Real.sqrt (v0 * v0 + vdsc * vdsc)
      let vdsat := v0 + (vdsc - argb)
      let dvsdga := onfbdy * (1 - vdsat / argb)
      (vdsat, dvsdga, dvsdga - (1 - vdsc / argb) * vdsc * r.fgG * r.onfg, 1 / vdsc)
    | none => (v0, onfbdy, onfbdy, 0)
  { vdsat := vdsat, g := g, d := -g * -p.sigma, b := -g * b.dqb - vdsat * b.dfbody * dvsdga, onvdsc := onvdsc }

/-- current and slopes, and what the velocity saturation adds to the slopes of the factor -/
structure Cur where
  ids : ℝ
  gm : ℝ
  gds : ℝ
  gmb : ℝ
  fdrain : ℝ
  fdG : ℝ
  fdD : ℝ
  fdB : ℝ

/-- current at the drain end `vdsx`, with mobility and velocity saturation (d_mos3.model:320-366) -/
noncomputable def P3.cur (p : P3) (b : Body) (r : Drive) (s : Sat) (vdsx : ℝ) : Cur :=
  let cdo := r.vc - (b.fbody + 1) * (1 / 2) * vdsx
  let dcodvb := -b.dqb - b.dfbody * (1 / 2) * vdsx
  let gm := vdsx
  let gds := r.vc - (b.fbody + 1 + -p.sigma) * vdsx
  let gmb := dcodvb * vdsx
  let ids := cdo * vdsx
  let cd1 := p.beta * ids
  let gm := gm * r.beta + r.fgG * cd1
  let gds := gds * r.beta + r.fgD * cd1
  let gmb := gmb * r.beta
  let ids := ids * r.beta
  match p.vmax with
  | some _ =>
    let fdrain := 1 / (vdsx * s.onvdsc + 1)
    let fd2 := fdrain * fdrain
    let arga := fd2 * vdsx * s.onvdsc * r.onfg
    let fdG := -r.fgG * arga
    let fdD := -r.fgD * arga - fd2 * s.onvdsc
    let fdB := -r.fgB * arga
    ⟨ids * fdrain, gm * fdrain + fdG * ids, gds * fdrain + fdD * ids, gmb * fdrain + fdB * ids, fdrain, fdG, fdD, fdB⟩
  | none => ⟨ids, gm, gds, gmb, 0, 0, 0, 0⟩

/-- shortening of the channel: `d_l`, `dl_dvd`, `ddl_dvgs`, `ddl_dvds`, `ddl_dvbs` -/
structure Short where
  dl : ℝ
  dvd : ℝ
  g : ℝ
  d : ℝ
  b : ℝ

/-- before punch through, `alpha` not zero (d_mos3.model:375-407) -/
noncomputable def P3.shorten (p : P3) (r : Drive) (s : Sat) (c : Cur) (vds : ℝ) : Short :=
  match p.vmax with
  | some _ =>
    let gdsat := max (1 / 10 ^ 12) (c.ids * (1 - c.fdrain) * s.onvdsc)
    let gdoncd := gdsat / c.ids
    let gdonfd := gdsat / (1 - c.fdrain)
    let gdonfg := gdsat * r.onfg
    let dgdvg := gdoncd * c.gm - gdonfd * c.fdG + gdonfg * r.fgG
    let dgdvd := gdoncd * c.gds - gdonfd * c.fdD + gdonfg * r.fgD
    let dgdvb := gdoncd * c.gmb - gdonfd * c.fdB + gdonfg * r.fgB
    let emax := c.ids / (p.leff * gdsat)
    let demaxG := emax / c.ids * c.gm - emax / gdsat * dgdvg
    let demaxD := emax / c.ids * c.gds - emax / gdsat * dgdvd
    let demaxB := emax / c.ids * c.gmb - emax / gdsat * dgdvb
    let arga := emax * (1 / 2) * p.alpha
    let argc := p.kappa * p.alpha
    let argb := Real.sqrt (arga * arga + argc * (vds - s.vdsat))
    let dvd := argc / (argb + argb)
    let de := (arga / argb - 1) * (1 / 2) * p.alpha
    ⟨argb - arga, dvd, de * demaxG, de * demaxD - dvd, de * demaxB⟩
  | none =>
    let dl := Real.sqrt (p.kappa * (vds - s.vdsat) * p.alpha)
    let dvd := dl * (1 / 2) / (vds - s.vdsat)
    ⟨dl, dvd, 0, -dvd, 0⟩

/-- punch through (d_mos3.model:409-419) -/
noncomputable def P3.punch (p : P3) (x : Short) : Short :=
  if p.leff * (1 / 2) < x.dl then
    let dl := p.leff - p.leff * p.leff / (x.dl * 4)
    let arga := (p.leff - dl) * (p.leff - dl) * 4 / (p.leff * p.leff)
    ⟨dl, x.dvd * arga, x.g * arga, x.d * arga, x.b * arga⟩
  else x

/-- the device above `von`, or at it: current and slopes, `gds0`, `vdsat` with its slope, was it the shortcut for `vds` 0 -/
structure On where
  ids : ℝ
  gm : ℝ
  gds : ℝ
  gmb : ℝ
  gds0 : ℝ
  vdsat : ℝ
  satG : ℝ
  zero : Bool

/-- d_mos3.model:257-440 -/
noncomputable def P3.on (p : P3) (b : Body) (vgsx vds : ℝ) : On :=
  let r := p.drive b vgsx vds
  let s := p.satv b r
  let vdsx := if s.vdsat < vds then s.vdsat else vds
  if vdsx = 0 then ⟨0, 0, r.beta * r.vc, 0, 0, s.vdsat, s.g, true⟩
  else
    let c := p.cur b r s vdsx
    if s.vdsat < vds ∧ p.alpha ≠ 0 then
      let x := p.punch (p.shorten r s c vds)
      let lfact := 1 / (1 - x.dl / p.leff)
      let ids := c.ids * lfact
      let diddl := ids / (p.leff - x.dl)
      let gds0 := c.gds * lfact + diddl * x.d
      ⟨ids, c.gm * lfact + diddl * x.g + gds0 * s.g, gds0 * s.d + diddl * x.dvd, c.gmb * lfact + diddl * x.b + gds0 * s.b, gds0,
        s.vdsat, s.g, false⟩
    else ⟨c.ids, c.gm, c.gds, c.gmb, 0, s.vdsat, s.g, false⟩

/-- `xn`, `dxn_dvbs` (d_mos3.model:221-223) -/
noncomputable def P3.xn (p : P3) (b : Body) : ℝ := 1 + p.cfsox + b.qb / (2 * b.vphis)
noncomputable def P3.dxn (b : Body) : ℝ := b.dqb / (2 * b.vphis) - b.qb * b.dsarg / (b.vphis * b.sarg)

/-- below `von` (d_mos3.model:313-315, 444-458) -/
noncomputable def P3.weak (p : P3) (b : Body) (vgs vds : ℝ) : Out :=
  let xn := p.xn b
  let vtxn := p.vt * xn
  let von := p.vthAt b vds + vtxn
  let vgst := vgs - von
  let dvonB := b.dqb + p.vt * P3.dxn b
  let o := p.on b von vds
  let wfact := Real.exp (vgst / vtxn)
  if o.zero then ⟨0, o.gds * wfact, 0, 0, von, vgst, o.vdsat, 0, 0, 0, 0⟩
  else
    let ids := o.ids * wfact
    let gms := o.gm * wfact
    let gmw := ids / vtxn
    ⟨ids, o.gds * wfact + (gms - gmw) * -p.sigma, gmw + o.gds0 * o.satG * wfact,
      o.gmb * wfact + ((gms - gmw) * dvonB - gmw * vgst * P3.dxn b / xn), von, vgst, o.vdsat, 0, 0, 0, 0⟩

/-- above it; `von` is given -/
noncomputable def P3.strong (p : P3) (b : Body) (von vgs vds : ℝ) : Out :=
  let o := p.on b vgs vds
  ⟨o.ids, o.gds, o.gm, o.gmb, von, vgs - von, o.vdsat, 0, 0, 0, 0⟩

/-- `tr_eval` (d_mos3.model:134-458) as far as the numbers go -/
noncomputable def P3.out (p : P3) (b : Body) (vgs vds : ℝ) : Out :=
  let vth := p.vthAt b vds
  if p.sub then
    let von := vth + p.vt * p.xn b
    if vgs < von then p.weak b vgs vds else p.strong b von vgs vds
  else if vgs ≤ vth then ⟨0, 0, 0, 0, vth, vgs - vth, 0, 0, 0, 0, 0⟩
  else p.strong b vth vgs vds

/-- does it get to the current (d_mos3.model:243-251, 307-317)? -/
noncomputable def P3.flows (p : P3) (b : Body) (vgs vds : ℝ) : Bool :=
  let vth := p.vthAt b vds
  if p.sub then
    let von := vth + p.vt * p.xn b
    !(p.on b (if vgs < von then von else vgs) vds).zero
  else if vgs ≤ vth then false
  else !(p.on b vgs vds).zero

/-- `tr_eval`; `none`: the slope with bulk voltage is not a number -/
noncomputable def P3.eval (p : P3) (vgs vds vbs : ℝ) : Option Out :=
  if (p.body vbs).nan && p.flows (p.body vbs) vgs vds then none else some (p.out (p.body vbs) vgs vds)

end Gnucap.Mos
