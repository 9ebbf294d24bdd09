import Verif.MosModel
import Mathlib.Analysis.SpecialFunctions.Sqrt
import Mathlib.Analysis.SpecialFunctions.Exp

/-!
# Mosfet, level 4 (BSIM1): current and slopes (model)

`tr_eval` of d_mos4.model (145-384, 547-554) after `reverse_if_needed`; what surrounds it is `MosModel`.  Real arithmetic; a result
made from a division by zero is a result of its own (`none`).  The charges (386-546) are not modelled: nothing reads them
(d_mos.model:86-108 has other states, and `cmodel` is never 0, d_mos4.model:47-48).
-/
namespace Gnucap.Mos

/-- Parameters of the size (d_mos4.model:79-132), `vdd` of the model (59), `leff` in micrometers (171), `vt` the thermal voltage at
300.15 K (349-350) -/
structure P4 where
  phi : ℝ
  vfb : ℝ
  k1 : ℝ
  k2 : ℝ
  eta : ℝ
  etaB : ℝ
  etaD : ℝ
  ugs : ℝ
  ugsB : ℝ
  uds : ℝ
  udsB : ℝ
  udsD : ℝ
  n0 : ℝ
  nB : ℝ
  nD : ℝ
  betaZero : ℝ
  betaZeroB : ℝ
  betaVdd : ℝ
  betaVddB : ℝ
  betaVddD : ℝ
  vdd : ℝ
  leff : ℝ
  vt : ℝ

/-- `Ugs`, `dUgsdVbs` (d_mos4.model:152-160) -/
noncomputable def P4.ugsAt (p : P4) (vbs : ℝ) : ℝ × ℝ :=
  let u := p.ugs + p.ugsB * vbs
  if u ≤ 0 then (0, 0) else (u, p.ugsB)

/-- `Uds`, `dUdsdVds`, `dUdsdVbs` (d_mos4.model:163-175) -/
noncomputable def P4.udsAt (p : P4) (vds vbs : ℝ) : ℝ × ℝ × ℝ :=
  let u := p.uds + p.udsB * vbs + p.udsD * (vds - p.vdd)
  if u ≤ 0 then (0, 0, 0) else (u / p.leff, p.udsD / p.leff, p.udsB / p.leff)

/-- `Vpb` (d_mos4.model:178-185) -/
noncomputable def P4.vpb (p : P4) (vbs : ℝ) : ℝ := if vbs ≤ 0 then p.phi - vbs else p.phi

/-- `Eta`, `dEtadVds`, `dEtadVbs` (d_mos4.model:193-207) -/
noncomputable def P4.etaAt (p : P4) (vds vbs : ℝ) : ℝ × ℝ × ℝ :=
  let e := p.eta + p.etaB * vbs + p.etaD * (vds - p.vdd)
  if e ≤ 0 then (0, 0, 0) else if 1 < e then (1, 0, 0) else (e, p.etaD, p.etaB)

/-- `von`, `dVthdVds`, `dVthdVbs` (d_mos4.model:209-211) -/
noncomputable def P4.vonAt (p : P4) (vds vbs : ℝ) : ℝ × ℝ × ℝ :=
  let e := p.etaAt vds vbs
  let s := Real.sqrt (p.vpb vbs)
  (p.vfb + p.phi + p.k1 * s - p.k2 * p.vpb vbs - e.1 * vds, -e.1 - e.2.1 * vds, p.k2 - 1 / 2 * p.k1 / s - e.2.2 * vds)

/-- `A`, `dAdVbs` (d_mos4.model:216-221) -/
noncomputable def P4.aAt (p : P4) (vbs : ℝ) : ℝ × ℝ :=
  let v := p.vpb vbs
  let s := Real.sqrt v
  let g := 1 - 1 / (1744 / 1000 + 8364 / 10000 * v)
  let a := max (1 + 1 / 2 * g * p.k1 / s) 1
  let dg := -(8364 / 10000) * (1 - g) * (1 - g)
  (a, 1 / 4 * p.k1 / s * (2 * dg + g / v))

/-- `Beta0`, `dBeta0dVds`, `dBeta0dVbs` (d_mos4.model:244-268); `none`: divided by `vdd`, which is zero -/
noncomputable def P4.beta0At (p : P4) (vds vbs : ℝ) : Option (ℝ × ℝ × ℝ) :=
  let bv := p.betaVdd + p.betaVddB * vbs
  let dv := max p.betaVddD 0
  if p.vdd < vds then some (bv + dv * (vds - p.vdd), dv, p.betaVddB)
  else if p.vdd = 0 then none
  else
    let b0 := p.betaZero + p.betaZeroB * vbs
    let sq := p.vdd * p.vdd
    let c1 := (-bv + b0 + dv * p.vdd) / sq
    let c2 := 2 * (bv - b0) / p.vdd - dv
    let dc1 := (p.betaZeroB - p.betaVddB) / sq
    let dc2 := dc1 * (-2) * p.vdd
    some ((c1 * vds + c2) * vds + b0, 2 * c1 * vds + c2, dc1 * vds * vds + dc2 * vds + p.betaZeroB)

/-- current, slopes, `vdsat` -/
structure Amp4 where
  ids : ℝ
  gm : ℝ
  gds : ℝ
  gmb : ℝ
  vdsat : ℝ

/-- above threshold (d_mos4.model:226-328); `u` is `vgst` -/
noncomputable def P4.strongAt (p : P4) (u vds vbs : ℝ) : Option Amp4 :=
  if u < 0 then some ⟨0, 0, 0, 0, 0⟩
  else
    match p.beta0At vds vbs with
    | none => none
    | some (beta0, beta0D, beta0B) =>
      let (ugs, ugsB) := p.ugsAt vbs
      let (uds, udsD, udsB) := p.udsAt vds vbs
      let (_, thD, thB) := p.vonAt vds vbs
      let (a, aB) := p.aAt vbs
      let arg := max (1 + ugs * u) 1
      let beta := beta0 / arg
      let betaG := -beta * ugs / arg
      let betaD := beta0D / arg - betaG * thD
      let betaB := beta0B / arg + beta * ugs * thB / arg - beta * u * ugsB / arg
      let vc0 := uds * u / a
      let vc := if vc0 < 0 then 0 else vc0
      let term1 := Real.sqrt (1 + 2 * vc)
      let k := 1 / 2 * (1 + vc + term1)
      let vdsat := max (u / (a * Real.sqrt k)) 0
      if vds < vdsat then
        let argl1 := max (1 + uds * vds) 1
        let argl2 := u - 1 / 2 * a * vds
        let ids := beta * argl2 * vds / argl1
        some
          { ids := ids
            gm := (betaG * argl2 * vds + beta * vds) / argl1
            gds := (betaD * argl2 * vds + beta * (u - vds * thD - a * vds) - ids * (vds * udsD + uds)) / argl1
            gmb := (betaB * argl2 * vds + beta * vds * (-thB - 1 / 2 * vds * aB) - ids * vds * udsB) / argl1
            vdsat := vdsat }
      else
        let args1 := 1 + 1 / term1
        let vcG := uds / a
        let vcD := u * udsD / a - vcG * thD
        let vcB := (u * udsB - uds * (thB + u * aB / a)) / a
        let kVc := 1 / 2 * args1
        let kG := kVc * vcG
        let kD := kVc * vcD
        let kB := kVc * vcB
        let args2 := u / a / k
        let args3 := args2 * u
        let ids := 1 / 2 * beta * args3
        some
          { ids := ids
            gm := 1 / 2 * args3 * betaG + beta * args2 - ids * kG / k
            gds := 1 / 2 * args3 * betaD - beta * args2 * thD - ids * kD / k
            gmb := 1 / 2 * betaB * args3 - beta * args2 * thB - ids * (aB / a + kB / k)
            vdsat := vdsat }

/-- weak inversion, which is added at all voltages (d_mos4.model:342-370) -/
noncomputable def P4.weakAt (p : P4) (u vds vbs : ℝ) : Amp4 :=
  if p.n0 < 200 then
    let n0 := p.n0 + p.nB * vbs + p.nD * vds
    let n := if n0 < 1 / 2 then 1 / 2 else n0
    let vtsq := p.vt * p.vt
    let nvt := n * p.vt
    let warg1 := Real.exp (-vds / p.vt)
    let wds := 1 - warg1
    let wgs := Real.exp (u / nvt)
    let warg2 := 604965 / 100000 * vtsq * p.betaZero
    let ilimit := 45 / 10 * vtsq * p.betaZero
    let iexp := warg2 * wgs * wds
    let t := ilimit / (ilimit + iexp)
    let temp1 := t * t
    let t3 := ilimit / (ilimit + wgs * warg2)
    let temp3 := t3 * t3 * warg2 * wgs
    let th := p.vonAt vds vbs
    { ids := ilimit * iexp / (ilimit + iexp)
      gm := temp1 * iexp / nvt
      gds := temp3 * (wds / nvt * (th.2.1 + u * p.nD / n) + warg1 / p.vt)
      gmb := -(temp1 * iexp * (th.2.2 + u * p.nB / n) / nvt)
      vdsat := 0 }
  else ⟨0, 0, 0, 0, 0⟩

/-- `x < 0 ? 0 : x` (d_mos4.model:380-383) -/
noncomputable def floor0 (x : ℝ) : ℝ := if x < 0 then 0 else x

/-- `tr_eval` (d_mos4.model:145-384) -/
noncomputable def P4.eval (p : P4) (vgs vds vbs : ℝ) : Option Out :=
  let von := (p.vonAt vds vbs).1
  let u := vgs - von
  match p.strongAt u vds vbs with
  | none => none
  | some s =>
    let w := p.weakAt u vds vbs
    some
      { ids := floor0 (s.ids + w.ids), gds := floor0 (s.gds + w.gds), gm := floor0 (s.gm + w.gm), gmb := floor0 (s.gmb + w.gmb),
        von := von, vgst := u, vdsat := s.vdsat }

end Gnucap.Mos
