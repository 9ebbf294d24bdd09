import Verif.MosModel
import Mathlib.Analysis.SpecialFunctions.Exp
import Mathlib.Analysis.SpecialFunctions.Log.Basic

/-!
# Mosfet, level 6 (model)

d_mos6.model: the threshold from the process (97-104), values at temperature (109-126), `tr_eval` after `reverse_if_needed` (135-198).  What
surrounds it is `MosModel`.  Real arithmetic.
-/
namespace Gnucap.Mos

/-- parameters of level 6: of the model, and at temperature (`tphi vbi beta`), d_mos6.model:39-71, 109-116 -/
structure P6 where
  gamma : ℝ
  gamma1 : ℝ
  nc : ℝ
  nv : ℝ
  kv : ℝ
  sigma : ℝ
  lambda0 : ℝ
  lambda1 : ℝ
  tphi : ℝ
  vbi : ℝ
  beta : ℝ

/-- `fixzero` (include/l_denoise.h:42-47); `tol` is `OPT::roundofftol` -/
noncomputable def fixzero (tol z r : ℝ) : ℝ := if |z| < |r * tol| then 0 else z

/-- Threshold from the process (d_mos6.model:98-102; the same in levels 1, 2, 3): `tpg` 0 metal, 1 opposite to, -1 same as the
substrate; `q` is P_Q. -/
noncomputable def vtoProcess (pol tpg egap phi gamma q nss cox : ℝ) : ℝ :=
  let phiMs := if tpg = 0 then pol * (-(1 / 20) - (egap + pol * phi) / 2) else -(tpg * egap + phi) / 2
  let vfb := phiMs - pol * q * nss / cox
  vfb + phi + gamma * Real.sqrt phi

/-- `phi` at temperature (d_mos6.model:111, 118-124); `k`, `q`, `kq` as in `P1.at` -/
noncomputable def phiAt (phi k q kq tnom temp : ℝ) : ℝ :=
  phi * (temp / tnom) + (-2 * (temp * kq) * (3 / 2 * Real.log (temp / tnom) +
    q * ((egapAt tnom * (temp / tnom) - egapAt temp) / (2 * (temp * k)))))

/-- `vbi` at temperature (d_mos6.model:113-115; the same in level 2, d_mos2.model:141-143, and 3, d_mos3.model:119-121) -/
noncomputable def vbiAt (tol vto gamma phi pol egap tegap tphi : ℝ) : ℝ :=
  fixzero tol (vto - gamma * Real.sqrt phi + 1 / 2 * (egap - tegap) + pol * (1 / 2) * (tphi - phi)) phi

/-- a device of level 6 at temperature; `m` gives the parameters that do not depend on it -/
noncomputable def P6.at (m : P6) (tol vto phi pol kc w l k q kq tnom temp : ℝ) : P6 :=
  let tphi := phiAt phi k q kq tnom temp
  { m with
    tphi := tphi
    beta := kc / (temp / tnom * Real.sqrt (temp / tnom)) * w / l
    vbi := vbiAt tol vto m.gamma phi pol (egapAt tnom) (egapAt temp) tphi }

/-- `sarg` (d_mos6.model:135-149) -/
noncomputable def P6.sarg (p : P6) (vbs : ℝ) : ℝ :=
  if vbs ≤ 0 then Real.sqrt (p.tphi - vbs)
  else
    let s := Real.sqrt p.tphi
    let s := s - vbs / (s + s)
    if s < 0 then 0 else s

/-- `tr_eval` of level 6 (d_mos6.model:154-198) -/
noncomputable def P6.eval (p : P6) (vgs vds vbs : ℝ) : Out :=
  let sarg := p.sarg vbs
  let von := p.vbi + p.gamma * sarg - p.gamma1 * vbs
  let vgst := vgs - von
  if vgst ≤ 0 then ⟨0, 0, 0, 0, von, vgst, 0, 0, 0, 0, 0⟩
  else
    let vonbm := if vbs ≤ 0 then p.gamma1 + p.gamma / (sarg + sarg) else p.gamma1 + p.gamma * (1 / 2) / Real.sqrt p.tphi
    let logvgon := Real.log vgst
    let idsat := p.beta * Real.exp (logvgon * p.nc)
    let Lambda := p.lambda0 - p.lambda1 * vbs
    let ids := idsat * (1 + Lambda * vds)
    let gm := ids * p.nc / vgst
    let gds := gm * p.sigma + idsat * Lambda
    let gmb := gm * vonbm - idsat * p.lambda1 * vds
    let vdsat := p.kv * Real.exp (logvgon * p.nv)
    if vdsat ≤ vds then ⟨ids, gds, gm, gmb, von, vgst, vdsat, 0, 0, 0, 0⟩
    else
      let vdst := vds / vdsat
      let vdst2 := (2 - vdst) * vdst
      let vdstg := -vdst * p.nv / vgst
      let ivdst1 := ids * (2 - vdst - vdst)
      ⟨ids * vdst2, gds * vdst2 + ivdst1 * (1 / vdsat + vdstg * p.sigma), gm * vdst2 + ivdst1 * vdstg,
        gmb * vdst2 + ivdst1 * vdstg * vonbm, von, vgst, vdsat, 0, 0, 0, 0⟩

end Gnucap.Mos
