import Verif.LimitModel
import Verif.IntegModel
import Mathlib.Analysis.Real.Sqrt
import Mathlib.Analysis.SpecialFunctions.Pow.Real

/-!
# Bipolar transistor (model)

Models `tr_eval` and `do_tr` of d_bjt.model, the elements `Ice`, `Ipi`, `Imu` (d_poly_g.cc) and the charges
`Cbe`, `Cbc`, `Cbx`, `Ccs` (`DEV_FPOLY_CAP`, d_poly_cap.cc).  Real arithmetic.
-/
namespace Gnucap.Bjt

/-- What the currents use (d_bjt.model:354-374, 194-197): at temperature, times area.  `ivaf`, `ivar` are `invearlyvoltf`,
`invearlyvoltr`. -/
structure Par where
  vt : ℝ
  nf : ℝ := 1
  nr : ℝ := 1
  ne : ℝ := 3 / 2
  nc : ℝ := 2
  ise : ℝ
  isc : ℝ
  leakE : ℝ := 0
  leakC : ℝ := 0
  bF : ℝ
  bR : ℝ
  gmin : ℝ := 0
  ivaf : ℝ := 0
  ivar : ℝ := 0
  oik : ℝ := 0
  oikr : ℝ := 0
  vcrit : ℝ := 1

/-- current and slope of a junction, ideal and leakage -/
structure Half where
  c : ℝ
  g : ℝ
  cn : ℝ
  gn : ℝ

/-- one junction: d_bjt.model:429-454 (base-emitter), 463-487 (base-collector) -/
noncomputable def half (vt n nl csat leak gmin v : ℝ) : Half :=
  let vtn := vt * n
  if -5 * vtn < v then
    ⟨csat * (Real.exp (v / vtn) - 1) + gmin * v, csat * Real.exp (v / vtn) / vtn + gmin,
      if leak = 0 then 0 else leak * (Real.exp (v / (nl * vt)) - 1),
      if leak = 0 then 0 else leak * Real.exp (v / (nl * vt)) / (nl * vt)⟩
  else
    let g := -csat / v + gmin
    let gn := -leak / v
    ⟨g * v, g, gn * v, gn⟩

noncomputable def Par.be (p : Par) (vbe : ℝ) : Half := half p.vt p.nf p.ne p.ise p.leakE p.gmin vbe
noncomputable def Par.bc (p : Par) (vbc : ℝ) : Half := half p.vt p.nr p.nc p.isc p.leakC p.gmin vbc

/-- `qb`, `dqbdve`, `dqbdvc` -/
structure Base where
  qb : ℝ
  dve : ℝ
  dvc : ℝ

/-- base charge (d_bjt.model:495-513) -/
noncomputable def Par.base (p : Par) (vbe vbc : ℝ) : Base :=
  let q1 := 1 / (1 - p.ivaf * vbc - p.ivar * vbe)
  if p.oik = 0 ∧ p.oikr = 0 then ⟨q1, q1 * q1 * p.ivar, q1 * q1 * p.ivaf⟩
  else
    let q2 := p.oik * (p.be vbe).c + p.oikr * (p.bc vbc).c
    let arg := max 0 (1 + 4 * q2)
    let sqarg := if arg = 0 then 1 else Real.sqrt arg
    let qb := q1 * (1 + sqarg) / 2
    ⟨qb, q1 * (qb * p.ivar + p.oik * (p.be vbe).g / sqarg), q1 * (qb * p.ivaf + p.oikr * (p.bc vbc).g / sqarg)⟩

/-- what `tr_eval` leaves of the currents -/
structure Out where
  cce : ℝ
  ccexxx : ℝ
  go : ℝ
  gm : ℝ
  cpi : ℝ
  cpixxx : ℝ
  gpi : ℝ
  cmu : ℝ
  cmuxxx : ℝ
  gmu : ℝ

/-- the currents (d_bjt.model:455-457, 488-490, 516-542).  The excess phase is disabled in the code: `cc` is 0, `cex`, `gex` are
`cbe`, `gbe`. -/
noncomputable def Par.currents (p : Par) (vbe vbc : ℝ) : Out :=
  let e := p.be vbe
  let c := p.bc vbc
  let b := p.base vbe vbc
  let cpi := e.c / p.bF + e.cn
  let gpi := e.g / p.bF + e.gn
  let cmu := c.c / p.bR + c.cn
  let gmu := c.g / p.bR + c.gn
  let cce := (e.c - c.c) / b.qb - c.c / p.bR - c.cn
  let go := (c.g + (e.c - c.c) * b.dvc / b.qb) / b.qb
  let gm := (e.g - (e.c - c.c) * b.dve / b.qb) / b.qb - go
  { cce, ccexxx := cce - ((vbe - vbc) * go + vbe * gm), go, gm
    cpi, cpixxx := cpi - vbe * gpi, gpi
    cmu, cmuxxx := cmu - vbc * gmu, gmu }

/-! ## the device -/

/-- the internal nodes -/
structure Nodes where
  c : ℝ
  b : ℝ
  e : ℝ

/-- What is kept between iterations, and what the elements have been given -/
structure St where
  vbe : ℝ
  vbc : ℝ
  o : Out

/-- the polarity applied (d_bjt.model:740-757); slopes are not touched -/
def Out.signed (pol : ℝ) (o : Out) : Out :=
  { o with cce := pol * o.cce, ccexxx := pol * o.ccexxx, cpi := pol * o.cpi, cpixxx := pol * o.cpixxx
           cmu := pol * o.cmu, cmuxxx := pol * o.cmuxxx }

/-- `do_tr` after the initial step (d_bjt.model:716-757), without initial conditions; `pol` is 1 or -1 -/
noncomputable def St.doTr (p : Par) (pol : ℝ) (n : Nodes) (s : St) : St :=
  let vbe := Limit.pnjLimit (pol * (n.b - n.e)) s.vbe p.vt p.vcrit
  let vbc := Limit.pnjLimit (pol * (n.b - n.c)) s.vbc p.vt p.vcrit
  ⟨vbe, vbc, (p.currents vbe vbc).signed pol⟩

/-- the current the element `Ice` {ic,ie ib,ie} loads from collector to emitter (d_bjt.model:58, d_poly_g.cc:191-199, 208-215) -/
def St.iCE (s : St) (n : Nodes) : ℝ := s.o.ccexxx + s.o.go * (n.c - n.e) + s.o.gm * (n.b - n.e)
/-- `Ipi` {ib ie} (d_bjt.model:59) -/
def St.iBE (s : St) (n : Nodes) : ℝ := s.o.cpixxx + s.o.gpi * (n.b - n.e)
/-- `Imu` {ib ic} (d_bjt.model:60) -/
def St.iBC (s : St) (n : Nodes) : ℝ := s.o.cmuxxx + s.o.gmu * (n.b - n.c)

/-- what flows into the device at collector, base, emitter -/
def St.intoC (s : St) (n : Nodes) : ℝ := s.iCE n - s.iBC n
def St.intoB (s : St) (n : Nodes) : ℝ := s.iBE n + s.iBC n
def St.intoE (s : St) (n : Nodes) : ℝ := -s.iCE n - s.iBE n

/-- probes `ic`, `ib`, `ie` (d_bjt.model:120-124) -/
def St.probeIc (s : St) : ℝ := s.o.cce - s.o.cmu
def St.probeIb (s : St) : ℝ := s.o.cpi + s.o.cmu
def St.probeIe (s : St) : ℝ := -s.o.cce - s.o.cpi

/-- `conchk` (e_compon.h:44-48) -/
def conchk (o n a r : ℝ) : Prop := |n - o| ≤ r * |n| + a

/-- `tr_needs_eval` (d_bjt.model:676-696), not yet queued; `vs` is the substrate, `conv` is `converged()`, `vcs` what `do_tr` left -/
def St.needsEval (conv : Prop) (pol vntol reltol : ℝ) (n : Nodes) (vs vcs : ℝ) (s : St) : Prop :=
  ¬conv ∨ ¬(conchk s.vbc (pol * (n.b - n.c)) vntol reltol ∧ conchk s.vbe (pol * (n.b - n.e)) vntol reltol ∧
    conchk vcs (pol * (n.c - vs)) vntol reltol)

/-- `vcs` as `do_tr` leaves it (d_bjt.model:723) -/
def gatherCs (pol : ℝ) (n : Nodes) (vs : ℝ) : ℝ := pol * (vs - n.c)

/-! ## temperature -/

/-- what depends on temperature, of one junction: saturation current, gain, leakage, potential, capacitance -/
structure Tdp where
  is : ℝ
  beta : ℝ
  leak : ℝ
  pot : ℝ
  cap : ℝ

/-- d_bjt.model:354-418; `k`, `q`, `kq` are P_K, P_Q, P_K_Q, `ref` is 300.15; temperatures absolute -/
noncomputable def tdp (k q kq ref tnom temp eg xti xtb nl mj : ℝ) (x : Tdp) : Tdp :=
  let fact1 := tnom / ref
  let fact2 := temp / ref
  let ratio := temp / tnom
  let kt := temp * k
  let vt := temp * kq
  let egap := 116 / 100 - 702 / 1000000 * temp * temp / (temp + 1108)
  let arg := -egap / (2 * kt) + 11150877 / 10000000 / (k * (ref + ref))
  let pbfact := -2 * vt * (3 / 2 * Real.log fact2 + q * arg)
  let factlog := (ratio - 1) * eg / vt + xti * Real.log ratio
  let bfactor := Real.exp (Real.log ratio * xtb)
  let pbo := (x.pot - pbfact) / fact1
  let pot := fact2 * pbo + pbfact
  let gmaold := (x.pot - pbo) / pbo
  let gmanew := (pot - pbo) / pbo
  { is := x.is * Real.exp factlog
    beta := x.beta * bfactor
    leak := x.leak * Real.exp (factlog / nl) / bfactor
    pot
    cap := x.cap / (1 + mj * (4 / 10000 * (tnom - ref) - gmaold)) * (1 + mj * (4 / 10000 * (temp - ref) - gmanew)) }

/-! ## charges -/

/-- charge and capacitance of a junction (d_bjt.model:609-624, 626-640, 642-656 without the transit time); `cz` times area, `pot` the
potential at temperature, with `f1`..`f3` or `f5`..`f7` (d_bjt.model:346-352, 405-406, 416-417) written out -/
noncomputable def depletion (cz pot mj fc v : ℝ) : ℝ × ℝ :=
  let xfc := Real.log (1 - fc)
  let f1 := pot * (1 - Real.exp ((1 - mj) * xfc)) / (1 - mj)
  let f2 := Real.exp ((1 + mj) * xfc)
  let f3 := 1 - fc * (1 + mj)
  let dep := fc * pot
  if v < dep then
    let arg := 1 - v / pot
    let sarg := arg ^ (-mj)
    (pot * cz * (1 - arg * sarg) / (1 - mj), cz * sarg)
  else
    (cz * f1 + cz / f2 * (f3 * (v - dep) + mj / (2 * pot) * (v * v - dep * dep)), cz / f2 * (f3 + mj * v / pot))

/-- collector to substrate (d_bjt.model:657-669) -/
noncomputable def substrate (cz vj mj v : ℝ) : ℝ × ℝ :=
  if v < 0 then
    let arg := 1 - v / vj
    let sarg := arg ^ (-mj)
    (vj * cz * (1 - arg * sarg) / (1 - mj), cz * sarg)
  else (v * cz * (1 + mj * v / (2 * vj)), cz * (1 + mj * v / vj))

/-- parameters of the transit time; `itf` times area, `kv` is `transtimevbcfact` -/
structure Transit where
  tf : ℝ
  xtf : ℝ := 0
  itf : ℝ := 0
  kv : ℝ := 0

/-- charge, capacitance, `geqcb` of the forward transit (d_bjt.model:578-607 and `m->tf * cbe`, `m->tf * gbe` in 609-623) -/
noncomputable def Par.transit (p : Par) (q : Transit) (vbe vbc : ℝ) : ℝ × ℝ × ℝ :=
  let cbe := (p.be vbe).c
  let gbe := (p.be vbe).g
  let b := p.base vbe vbc
  if q.tf ≠ 0 ∧ 0 < vbe then
    let a0 := if q.kv ≠ 0 then q.xtf * Real.exp (vbc * q.kv) else q.xtf
    let temp := cbe / (cbe + q.itf)
    let argtf := if q.xtf ≠ 0 then (if q.itf ≠ 0 then a0 * (temp * temp) else a0) else 0
    let arg2 := if q.xtf ≠ 0 then (if q.itf ≠ 0 then a0 * (3 - temp - temp) else a0) else 0
    let arg3 := if q.xtf ≠ 0 then cbe * argtf * q.kv else 0
    let cbe' := cbe * ((1 + argtf) / b.qb)
    let gbe' := (gbe * (1 + arg2) - cbe' * b.dve) / b.qb
    (q.tf * cbe', q.tf * gbe', q.tf * (arg3 - cbe' * b.dvc) / b.qb)
  else (q.tf * cbe, q.tf * gbe, 0)

/-- `qbe`, `cqbe`, `geqcb` (d_bjt.model:578-624) -/
noncomputable def Par.chargeBE (p : Par) (q : Transit) (cz pot mj fc vbe vbc : ℝ) : ℝ × ℝ × ℝ :=
  let t := p.transit q vbe vbc
  let d := depletion cz pot mj fc vbe
  (t.1 + d.1, t.2.1 + d.2, t.2.2)

/-- `qbc`, `cqbc` (d_bjt.model:625-640); `cz` includes `xcjc` -/
noncomputable def Par.chargeBC (p : Par) (tr cz pot mj fc vbc : ℝ) : ℝ × ℝ :=
  let d := depletion cz pot mj fc vbc
  (tr * (p.bc vbc).c + d.1, tr * (p.bc vbc).g + d.2)

/-! ## fpoly_cap -/
section fpoly
open Gnucap.Integ
variable {F : Type _} [Field F] [DecidableEq F]

/-- `DEV_FPOLY_CAP::do_tr` (d_poly_cap.cc:177-209): `q` the charge, `cs` its slopes for the ports, `vs` their voltages, `y` and `i` the
past.  Gives the new `_i[0]` and `_vi0`: the constant and the conductances.  The conductance left by the last iteration, used only when
restoring, is not kept: `g` stands for them. -/
def fpolyDoTr (ph : Phase) (m : Method) (time : ℕ → F) (dt : F) (y i : ℕ → FPoly F) (q : F) (cs vs : List F) (g : F) :
    FPoly F × F × List F :=
  let y' : ℕ → FPoly F := fun k => if k = 0 then ⟨vs.headD 0, q, cs.headD 0⟩ else y k
  let i0 := differentiate ph y' i time m
  let gs := cs.map fun c => trCToG ph time dt m c g
  (i0, ((vs.zip gs).foldl (fun c vg => c - vg.1 * vg.2) i0.f0), gs)

/-- what it loads (d_poly_cap.cc:211-222) -/
def fpolyLoaded (r : FPoly F × F × List F) (vs : List F) : F := r.2.1 + ((vs.zip r.2.2).map fun vg => vg.1 * vg.2).sum

/-- its part in AC (d_poly_cap.cc:241-248), over jω -/
def fpolyAc (cs vs : List F) : F := ((vs.zip cs).map fun vc => vc.1 * vc.2).sum

end fpoly
end Gnucap.Bjt
