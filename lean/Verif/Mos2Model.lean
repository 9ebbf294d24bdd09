import Verif.Mos6Model
import Mathlib.Analysis.SpecialFunctions.Pow.Real
import Mathlib.Analysis.SpecialFunctions.Trigonometric.Arctan

/-!
# Mosfet, level 2 (model)

`tr_eval` of d_mos2.model (155-649) after `reverse_if_needed`; temperature is as in level 6 (`phiAt`, `vbiAt`), what surrounds it is
`MosModel`.  Real arithmetic: where the code would take the root of a negative number in the search for `vdsat` it finds nothing, and so
does this; slopes from zero divided by zero make a result of their own (`none`).  Messages are left out.
-/
namespace Gnucap.Mos

/-- Parameters: of the model (d_mos2.model:46-84), of the size (`leff eta1`, 126-128) and at temperature (`tphi vbi vt uo beta`, 135-143).
`short` is `short_channel`, `sub` is `do_subthreshold` (156-157); `lambda`, `vmax`, `uexp` are none if not given; `alt` is the bit 01000
of `mosflags`, `tol` is `OPT::roundofftol`. -/
structure P2 where
  gamma : ℝ
  xd : ℝ
  xj : ℝ
  xwb : ℝ
  neff : ℝ
  vbp : ℝ
  cfsox : ℝ
  short : Bool
  sub : Bool
  lambda : Option ℝ
  vmax : Option ℝ
  uexp : Option ℝ
  leff : ℝ
  eta1 : ℝ
  tphi : ℝ
  vbi : ℝ
  vt : ℝ
  uo : ℝ
  beta : ℝ
  alt : Bool
  tol : ℝ

/-- `eta` (d_mos2.model:129); `eta_2` is half of it (130) -/
def P2.eta (p : P2) : ℝ := p.eta1 + 1

/-- root of a surface potential, with its two slopes -/
structure Root2 where
  r : ℝ
  d : ℝ
  dd : ℝ

/-- `sarg`, `dsarg_dvbs`, `d2sdb2` from `vbs` (d_mos2.model:168-194) and `barg`, `dbarg_dvbs`, `d2bdb2` from `vbd` (206-231) -/
noncomputable def P2.arg (p : P2) (v : ℝ) : Root2 :=
  if v ≤ 0 then
    let r := Real.sqrt (p.tphi - v)
    let d := -(1 / 2) / r
    ⟨r, d, 1 / 2 * d / (p.tphi - v)⟩
  else
    let sp := Real.sqrt p.tphi
    let psp := p.tphi * sp
    if p.alt then
      let r := sp / (1 + 1 / 2 * v / p.tphi)
      let d := -(1 / 2) * r * r / psp
      ⟨r, d, -d * r / psp⟩
    else
      let r := sp / (1 + 1 / 2 * v / p.tphi + 375 / 1000 * v * v / (p.tphi * p.tphi))
      let d := -(1 / 2) * r * r / psp * (1 + 3 / 2 * v / p.tphi)
      ⟨r, d, -d * r / psp - 3 / 4 * r / (psp * p.tphi) * (2 * v * d + r)⟩

/-- `gamma_s` and its slopes: with drain voltage, with bulk voltage, and twice (as the code has it) -/
structure Gam2 where
  g : ℝ
  d : ℝ
  b : ℝ
  bb : ℝ

/-- short channel (d_mos2.model:239-281); `relxj` is from 123-125 -/
noncomputable def P2.gam (p : P2) (s b : Root2) : Gam2 :=
  if p.short then
    let relxj := 1 / 2 * p.xj / p.leff
    let argxd := 1 + 2 * b.r * p.xd / p.xj
    let argd := Real.sqrt argxd
    let alphaD := relxj * (argd - 1)
    let alphaDd := p.xd / (4 * p.leff * argd * b.r)
    let alphaDb := -alphaDd
    let argxs := 1 + 2 * s.r * p.xd / p.xj
    let args := Real.sqrt argxs
    let alphaS := relxj * (args - 1)
    let alphaSb := -p.xd / (4 * p.leff * args * s.r)
    let dasdb2 := -p.xd * (s.dd + s.d * s.d * p.xd / (p.xj * argxs)) / (p.leff * args)
    let daddb2 := -p.xd * (b.dd + b.d * b.d * p.xd / (p.xj * argxd)) / (p.leff * argd)
    ⟨p.gamma * (1 - alphaS - alphaD), -p.gamma * alphaDd, -p.gamma * (alphaDb + alphaSb), -(1 / 2) * p.gamma * (dasdb2 + daddb2)⟩
  else ⟨p.gamma, 0, 0, 0⟩

/-- what is known before the gate is looked at -/
structure Bulk2 where
  vbs : ℝ
  vds : ℝ
  s : Root2
  b : Root2
  m : Gam2

noncomputable def P2.bulk (p : P2) (vds vbs : ℝ) : Bulk2 :=
  let s := p.arg vbs
  let b := p.arg (vbs - vds)
  ⟨vbs, vds, s, b, p.gam s b⟩

/-- `vbin` (d_mos2.model:288) -/
noncomputable def P2.vbin (p : P2) (k : Bulk2) : ℝ := p.vbi + p.eta1 * (p.tphi - k.vbs)

/-- `xn`, `dxn_dvbs` (d_mos2.model:294-298) -/
noncomputable def P2.xn (p : P2) (k : Bulk2) : ℝ := 1 + p.cfsox + (-(k.m.g * k.s.d + k.m.b * k.s.r) + p.eta1)
noncomputable def P2.dxn (k : Bulk2) : ℝ := 2 * k.m.b * k.s.d + k.m.g * k.s.dd + k.m.bb * k.s.r

/-- `von`, `dvon_dvbs` (d_mos2.model:289-290, 301-302) -/
noncomputable def P2.von (p : P2) (k : Bulk2) : ℝ := p.vbin k + k.m.g * k.s.r + if p.sub then p.vt * p.xn k else 0
noncomputable def P2.dvon (p : P2) (k : Bulk2) : ℝ :=
  -p.eta1 + k.m.b * k.s.r + k.m.g * k.s.d + if p.sub then p.vt * P2.dxn k else 0

/-- mobility: `ufact`, `duf_dvgs`, `duf_dvbs` (d_mos2.model:334-344); `duf_dvds` is zero -/
structure Mob2 where
  f : ℝ
  g : ℝ
  b : ℝ

noncomputable def P2.mob (p : P2) (vgst dvon : ℝ) : Mob2 :=
  match p.uexp with
  | some e =>
    if p.vbp < vgst then
      let f := (p.vbp / vgst) ^ e
      ⟨f, -f * e / vgst, dvon * f * e / vgst⟩
    else ⟨1, 0, 0⟩
  | none => ⟨1, 0, 0⟩

/-- the polynomial of Baum: `a1`, `b1`, `c1`, `d1` -/
structure Quart where
  a : ℝ
  b : ℝ
  c : ℝ
  d : ℝ

/-- `poly4` (d_mos2.model:409-413) -/
def Quart.at (q : Quart) (x : ℝ) : ℝ := x * x * x * x + q.a * x * x * x + q.b * x * x + q.c * x + q.d

/-- its coefficients (d_mos2.model:352-359) -/
noncomputable def P2.quart (p : P2) (k : Bulk2) (vm ueff vc : ℝ) : Quart :=
  let gammad := k.m.g / p.eta
  let v2 := p.tphi - k.vbs
  let v1 := vc / p.eta + v2
  let xv := vm * p.leff / ueff
  ⟨gammad * (4 / 3), -2 * (v1 + xv), -2 * gammad * xv, 2 * v1 * (v2 + xv) - v2 * v2 - 4 / 3 * gammad * (k.s.r * k.s.r * k.s.r)⟩

/-- `y3`, meant to be a root of the resolvent (d_mos2.model:360-379); an angle from a division by zero is a right angle -/
noncomputable def Quart.y3 (q : Quart) : ℝ :=
  let a := -q.b
  let b := q.a * q.c - 4 * q.d
  let C := -q.d * (q.a * q.a - 4 * q.b) - q.c * q.c
  let r := -a * a / 3 + b
  let r3 := r * r * r
  let S := 2 * a * a * a / 27 - a * b / 3 + C
  let P := S * S / 4 + r3 / 27
  if P < 0 then
    let ro := (-r3 / 27) ^ ((1 : ℝ) / 6)
    let fi := if S = 0 then -(Real.pi / 2) else Real.arctan (-2 * Real.sqrt (-P) / S)
    2 * ro * Real.cos (fi / 3) - a / 3
  else
    let p2 := Real.sqrt P
    |(-S / 2 + p2)| ^ ((1 : ℝ) / 3) + |(-S / 2 - p2)| ^ ((1 : ℝ) / 3) - a / 3

/-- two of the places tried (d_mos2.model:394-401), for one pair of signs -/
noncomputable def Quart.pair (q : Quart) (y a3 b3 s1 s2 : ℝ) : List ℝ :=
  let a4 := q.a / 2 + s1 * a3
  let b4 := y / 2 + s2 * b3
  let delta4 := a4 * a4 / 4 - b4
  if 0 ≤ delta4 then [-a4 / 2 + Real.sqrt delta4, -a4 / 2 - Real.sqrt delta4] else []

/-- all of them, `x4` (d_mos2.model:381-403): none if a root is not a number -/
noncomputable def Quart.tries (q : Quart) (y : ℝ) : List ℝ :=
  let A := q.a * q.a / 4 - q.b + y
  let B := y * y / 4 - q.d
  if A < 0 ∨ B < 0 then []
  else
    let a3 := Real.sqrt A
    let b3 := Real.sqrt B
    q.pair y a3 b3 1 1 ++ q.pair y a3 b3 (-1) 1 ++ q.pair y a3 b3 1 (-1) ++ q.pair y a3 b3 (-1) (-1)

/-- one round of the choice: `xvalid`, none while there is no root (d_mos2.model:405-426) -/
noncomputable def Quart.choose (q : Quart) (best : Option ℝ) (x : ℝ) : Option ℝ :=
  if 0 < x ∧ |q.at x| ≤ 1 / 1000000 then
    match best with
    | none => some x
    | some y => if x ≤ y then some x else some y
  else best

/-- root of the saturation voltage, after Baum (d_mos2.model:351-435) -/
noncomputable def Quart.pick (q : Quart) : Option ℝ := (q.tries q.y3).foldl q.choose none

/-- `vdsat` with its slopes, and whether it is that of Baum -/
structure Sat2 where
  v : ℝ
  g : ℝ
  b : ℝ
  baum : Bool

/-- `vdsat` after Grove and Frohman (d_mos2.model:444-470) -/
noncomputable def P2.grove (p : P2) (k : Bulk2) (vc : ℝ) : Sat2 :=
  let vcEta := vc / p.eta
  if 0 < k.m.g then
    let argv := vcEta + (p.tphi - k.vbs)
    if 0 < argv then
      let gammad := k.m.g / p.eta
      let gammd2 := gammad * gammad
      let arg1 := Real.sqrt (1 + 4 * argv / gammd2)
      let g := (1 - 1 / arg1) / p.eta
      ⟨vcEta + gammd2 * (1 - arg1) / 2, g,
        (gammad * (1 - arg1) + 2 * argv / (gammad * arg1)) / p.eta * k.m.b + 1 / arg1 + p.eta1 * g, false⟩
    else ⟨0, 0, 0, false⟩
  else ⟨vcEta, 1, 0, false⟩

/-- which of the two, not below zero (d_mos2.model:350-481): the slopes of Baum's come later -/
noncomputable def P2.vsat (p : P2) (k : Bulk2) (ueff vc : ℝ) : Sat2 :=
  let s := match p.vmax with
    | some vm =>
      match (p.quart k vm ueff vc).pick with
      | some x => ⟨x * x - (p.tphi - k.vbs), 0, 0, true⟩
      | none => p.grove k vc
    | none => p.grove k vc
  if s.v < 0 then { s with v := 0 } else s

/-- `bsarg`, `dbsarg_dvbs` (d_mos2.model:485-496) -/
noncomputable def P2.bsarg (p : P2) (k : Bulk2) (vdsat : ℝ) : ℝ × ℝ :=
  let v := k.vbs - vdsat
  if v ≤ 0 then (Real.sqrt (p.tphi - v), -(1 / 2) / Real.sqrt (p.tphi - v))
  else
    let r := Real.sqrt p.tphi / (1 + 1 / 2 * v / p.tphi)
    (r, -(1 / 2) * r * r / (p.tphi * Real.sqrt p.tphi))

/-- slopes of Baum's `vdsat` (d_mos2.model:501-518) -/
noncomputable def P2.slopes (p : P2) (k : Bulk2) (ueff vc : ℝ) (s : Sat2) : Sat2 :=
  match p.vmax, s.baum with
  | some vm, true =>
    let bs := p.bsarg k s.v
    let bodys := bs.1 * bs.1 * bs.1 - k.s.r * k.s.r * k.s.r
    let gdbdvs := 2 * k.m.g * (bs.1 * bs.1 * bs.2 - k.s.r * k.s.r * k.s.d)
    let argv := vc / p.eta - s.v
    let vqchan := argv - k.m.g * bs.1
    let dqdsat := -1 + k.m.g * bs.2
    let vl := vm * p.leff
    let dfunds := vl * dqdsat - ueff * vqchan
    let dfundg := (vl - ueff * s.v) / p.eta
    let dfundb := -vl * (1 + dqdsat - p.eta1 / p.eta) + ueff * (gdbdvs - k.m.b * bodys / (3 / 2)) / p.eta
    { s with g := -dfundg / dfunds, b := -dfundb / dfunds }
  | _, _ => s

/-- `clfact` and `dl_dvgs`, `dl_dvds`, `dl_dvbs` -/
structure Len2 where
  f : ℝ
  g : ℝ
  d : ℝ
  b : ℝ

/-- shortening before punch through, `clfact` and `dldsat` without `lambda` (d_mos2.model:529-559) -/
noncomputable def P2.shorten (p : P2) (ueff vds : ℝ) (s : Sat2) : ℝ × ℝ :=
  match p.vmax, s.baum with
  | some vm, true =>
    let xdv := p.xd / Real.sqrt p.neff
    let xlv := vm * xdv / (2 * ueff)
    let argv := if vds - s.v < 0 then 0 else vds - s.v
    let xls := Real.sqrt (xlv * xlv + argv)
    (1 - (xls - xlv) * xdv / p.leff, xdv / (2 * xls * p.leff))
  | _, _ =>
    let argv := (vds - s.v) / 4
    let sargv := Real.sqrt (1 + argv * argv)
    if 0 ≤ argv + sargv then
      let dl := p.xd * Real.sqrt (argv + sargv)
      (1 - dl / p.leff, dl / (p.leff * 8 * sargv))
    else (1, 0)

/-- shortening (d_mos2.model:526-584) -/
noncomputable def P2.length (p : P2) (ueff vds : ℝ) (s : Sat2) : Len2 :=
  if 0 ≤ vds then
    let c : Len2 := match p.lambda with
      | none =>
        let x := p.shorten ueff vds s
        ⟨x.1, s.g * x.2, -x.2, s.b * x.2⟩
      | some l => ⟨1 - l * vds, 0, -l, 0⟩
    if c.f < p.xwb / p.leff then
      let leff := p.xwb / (2 - c.f * p.leff / p.xwb)
      let dfact := leff * leff / (p.xwb * p.xwb)
      ⟨leff / p.leff, c.g * dfact, c.d * dfact, c.b * dfact⟩
    else c
  else ⟨1, 0, 0, 0⟩

/-- current and slopes before the exponential of weak inversion, and what it needs -/
structure On2 where
  ids : ℝ
  gm : ℝ
  gds : ℝ
  gmb : ℝ
  gsat : ℝ
  bv : ℝ
  vdsat : ℝ

/-- d_mos2.model:325-612, 621-625, 634-641: the device at the gate voltage `vgsx`; `gsat` is `didvds * dvdsat_dvgs` if saturated and zero
if not, `bv` is `beta * vdsx` -/
noncomputable def P2.on (p : P2) (k : Bulk2) (vgsx vgst : ℝ) : On2 :=
  let vc := vgsx - p.vbin k
  let u := p.mob vgst (p.dvon k)
  let ueff := p.uo * u.f
  let s := p.slopes k ueff vc (p.vsat k ueff vc)
  let bs := p.bsarg k s.v
  let c := p.length ueff k.vds s
  let sat : Bool := decide (s.v < k.vds)
  let vdsx := if sat then s.v else k.vds
  let bargx := if sat then bs.1 else k.b.r
  let body := bargx * bargx * bargx - k.s.r * k.s.r * k.s.r
  let beta := p.beta * u.f / c.f
  let ids := beta * ((vc - p.eta / 2 * vdsx) * vdsx - 2 / 3 * k.m.g * body)
  let didvds := fixzero p.tol (beta * (vc - p.eta * vdsx - k.m.g * bargx)) ids
  let gsat := if sat then didvds * s.g else 0
  { ids := ids
    gm := beta * vdsx + ids * (u.g / u.f - c.g / c.f) + gsat
    gds := (if sat then 0 else didvds) + ids * (0 / u.f - c.d / c.f) - (if p.short then beta * (2 / 3) * body * k.m.d else 0)
    gmb := beta * (p.eta1 * vdsx - k.m.g * (k.s.r - bargx)) + ids * (u.b / u.f - c.b / c.f) -
      (if p.short then beta * (2 / 3) * body * k.m.b else 0) + (if sat then didvds * s.b else 0)
    gsat := gsat
    bv := beta * vdsx
    vdsat := s.v }

/-- weak inversion (d_mos2.model:613-619, 626-632, 642-647) -/
noncomputable def P2.weak (p : P2) (k : Bulk2) (vgs : ℝ) : Out :=
  let xn := p.xn k
  let vtxn := p.vt * xn
  let von := p.von k
  let vgst := vgs - von
  let o := p.on k von vgst
  let expg := Real.exp (vgst / vtxn)
  let ids := o.ids * expg
  let gm := (o.ids / vtxn + o.gsat) * expg
  let dxndvd := k.m.d * k.s.d
  let dodvds := k.m.d * k.s.r + p.vt * dxndvd
  let gmw := ids * vgst / (vtxn * xn)
  ⟨ids, o.gds * expg - (gm * dodvds + gmw * dxndvd), gm, (o.gmb + p.dvon k * o.bv) * expg - (gm * p.dvon k + gmw * P2.dxn k), von, vgst,
    o.vdsat, 0, 0, 0, 0⟩

/-- `tr_eval` (d_mos2.model:155-649) as far as the numbers go; in cutoff the code leaves `vdsat` as it was -/
noncomputable def P2.out (p : P2) (vgs vds vbs : ℝ) : Out :=
  let k := p.bulk vds vbs
  let von := p.von k
  if p.sub then
    if vgs < von then p.weak k vgs
    else
      let o := p.on k vgs (vgs - von)
      ⟨o.ids, o.gds, o.gm, o.gmb, von, vgs - von, o.vdsat, 0, 0, 0, 0⟩
  else if vgs < von then ⟨0, 0, 0, 0, von, vgs - von, 0, 0, 0, 0, 0⟩
  else
    let o := p.on k vgs (vgs - von)
    ⟨o.ids, o.gds, o.gm, o.gmb, von, vgs - von, o.vdsat, 0, 0, 0, 0⟩

/-- does the shortening divide zero by zero: line 540 with `xls` zero? -/
noncomputable def P2.nan (p : P2) (vgs vds vbs : ℝ) : Bool :=
  let k := p.bulk vds vbs
  let von := p.von k
  let weak : Bool := p.sub && decide (vgs < von)
  if !p.sub && decide (vgs < von) then false
  else
    let ueff := p.uo * (p.mob (vgs - von) (p.dvon k)).f
    let s := p.vsat k ueff ((if weak then von else vgs) - p.vbin k)
    match p.vmax, p.lambda, s.baum with
    | some vm, none, true =>
      let xlv := vm * (p.xd / Real.sqrt p.neff) / (2 * ueff)
      decide (Real.sqrt (xlv * xlv + if vds - s.v < 0 then 0 else vds - s.v) = 0)
    | _, _, _ => false

/-- `tr_eval`; `none`: the slopes are not numbers -/
noncomputable def P2.eval (p : P2) (vgs vds vbs : ℝ) : Option Out :=
  if p.nan vgs vds vbs then none else some (p.out vgs vds vbs)

end Gnucap.Mos
