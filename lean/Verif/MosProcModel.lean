import Mathlib.Analysis.SpecialFunctions.Log.Basic
import Mathlib.Analysis.Real.Sqrt

/-!
# A transistor from its process

What a model card of level 1, 2, 3 or 6 makes of the process it describes (d_mos123.model:32-111, d_mos1.model:40-92,
d_mos2.model:41-121, d_mos3.model:40-112, d_mos6.model:40-108), in the order of the generated `precalc_first`
(mg_out_model.cc:292-310, mg_out_lib.cc:26-142), and what a device makes of its size (d_mos_base.model:149-191).

A parameter of the card is what `PARAMETER` holds (u_parameter.h:97-184): no text, a final number (`#`), or a text whose value
depends on the session.  `precalc_first` runs at the start of every analysis (u_sim_data.cc:264-284, e_cardlist.cc:167-193) and
writes to the card, so the card is a state.  The number kept in `_v` is that of the last `e_val`, and everything below is used
after one, so it is not part of the state.

Not modelled: texts without a value (they give NOT_INPUT and a message), listings, rounding.  Levels 2 and 3 have the same code
here and are one level; `kc` of level 6 is called `kp`.
-/

namespace Gnucap.MosProc

/-- what a `PARAMETER` holds; `E` is the state of the session its texts are read in -/
inductive Src (E α : Type) where
  | blank
  | num (x : α)
  | text (f : E → α)

variable {E α : Type}

/-- `e_val` without a default, or with NA (u_parameter.h:560-598) -/
def Src.get (e : E) : Src E α → Option α
  | .blank => none
  | .num x => some x
  | .text f => some (f e)

/-- `e_val` with a default (u_parameter.h:560-598) -/
def Src.getD (e : E) (d : α) : Src E α → α
  | .blank => d
  | .num x => x
  | .text f => f e

/-- P_Q, P_K, P_EPS0 (constant.h:58, 61, 65), NI (d_mos123.model:27) -/
noncomputable def qe : ℝ := 1.6021918e-19
noncomputable def kb : ℝ := 1.3806226e-23
noncomputable def eps0 : ℝ := 8.854214871e-12
noncomputable def ni : ℝ := 1.45e16
/-- P_EPS_SI, P_EPS_OX, P_K_Q (constant.h:71-73) -/
noncomputable def epsSi : ℝ := 11.7 * eps0
noncomputable def epsOx : ℝ := 3.9 * eps0
noncomputable def kq : ℝ := kb / qe

inductive Level where
  | one
  | two
  | six
  deriving DecidableEq

/-- the card, as far as it is used here; `cox` is not a parameter but kept from one analysis to the next
(d_mos123.model:78-79) -/
structure Card (E : Type) where
  vto : Src E ℝ
  gamma : Src E ℝ
  phi : Src E ℝ
  tox : Src E ℝ
  nsub : Src E ℝ
  nss : Src E ℝ
  uo : Src E ℝ
  tpg : Src E ℤ
  kp : Src E ℝ
  tnom : Src E ℝ
  cox : Option ℝ

/-- what the equations use; `vto` is none if a root of a negative number was taken -/
structure Vals where
  cox : ℝ
  kp : ℝ
  phi : ℝ
  gamma : ℝ
  vto : Option ℝ
  tpg : ℤ

/-- `tpg` coerced (d_mos123.model:85-91) -/
def gate (t : ℤ) : ℤ := if t < 0 then -1 else if t > 0 then 1 else 0

/-- `tox` behind d_mos123.model:92-97 -/
noncomputable def oxide (e : E) (s : Src E ℝ) : Src E ℝ :=
  match s.get e with
  | none => s
  | some x => if x ≤ 0 then .blank else s

/-- `nsub` behind d_mos123.model:71-72, 98-102 -/
noncomputable def doping (e : E) (s : Src E ℝ) : Option ℝ :=
  match s.get e with
  | none => none
  | some x => if x * 1e6 < ni then none else some (x * 1e6)

/-- `phi` where it is not given (d_mos1.model:66-75) -/
noncomputable def phiCalc (tnom n : ℝ) : ℝ :=
  let p := (2 * kq) * tnom * Real.log (n / ni)
  if p < 0.1 then 0.1 else p

/-- the energy gap (d_mos_base.model:109-110) -/
noncomputable def egap (t : ℝ) : ℝ := 1.16 - (7.02e-4 * t * t) / (t + 1108)

/-- `vto` where it is not given (d_mos1.model:80-87) -/
noncomputable def vtoCalc (pol : ℝ) (tpg : ℤ) (eg phi gamma nss cox : ℝ) : Option ℝ :=
  let ms := if tpg = 0 then pol * (-0.05 - (eg + pol * phi) / 2) else -(tpg * eg + phi) / 2
  let vfb := ms - pol * qe * nss / cox
  if phi < 0 then none else some (vfb + phi + gamma * Real.sqrt phi)

/-- the factor of `uo * cox` and the default of `kp` (d_mos1.model:52, 61-64; d_mos6.model:56, 78-81) -/
noncomputable def gain : Level → ℝ × ℝ
  | .six => (0.5, 5e-5)
  | _ => (1, 2e-5)

/-- the thickness used: levels 2 and 3 have a default and keep it (d_mos2.model:87-89; d_mos3.model:79-81) -/
noncomputable def thick (lv : Level) (e : E) (s : Src E ℝ) : Src E ℝ :=
  match lv with
  | .two => match (oxide e s).get e with
    | none => .num 1e-7
    | some _ => oxide e s
  | _ => oxide e s

/-- `precalc_first` -/
noncomputable def precalc (lv : Level) (pol tdef : ℝ) (e : E) (c : Card E) : Card E × Vals :=
  let tk := c.tnom.getD e tdef + 273.15
  let nss := c.nss.getD e 0 * 1e4
  let uo := c.uo.getD e 600 * 1e-4
  let tpg := gate (c.tpg.getD e 1)
  let n := doping e c.nsub
  let vraw := (c.vto.get e).map (· * pol)
  let tox := thick lv e c.tox
  let c := { c with tpg := .num tpg, tox := tox }
  match tox.get e with
  | none =>
    ({ c with cox := some (c.cox.getD 0),
              gamma := match c.gamma.get e with | none => .num 0 | some _ => c.gamma,
              phi := match c.phi.get e with | none => .num 0.6 | some _ => c.phi },
     { cox := c.cox.getD 0, kp := (c.kp.get e).getD (gain lv).2, phi := (c.phi.get e).getD 0.6, gamma := (c.gamma.get e).getD 0,
       vto := some (vraw.getD 0), tpg := tpg })
  | some x =>
    let cox := epsOx / x
    let kp : Src E ℝ := match c.kp.get e with | none => .num ((gain lv).1 * uo * cox) | some _ => c.kp
    match n with
    | none =>
      ({ c with kp := kp, cox := some cox,
                gamma := match c.gamma.get e with | none => .num 0 | some _ => c.gamma,
                phi := match c.phi.get e with | none => .num 0.6 | some _ => c.phi },
       { cox := cox, kp := (c.kp.get e).getD ((gain lv).1 * uo * cox), phi := (c.phi.get e).getD 0.6,
         gamma := (c.gamma.get e).getD 0, vto := some (vraw.getD 0), tpg := tpg })
    | some n =>
      let phi := (c.phi.get e).getD (phiCalc tk n)
      let gamma := (c.gamma.get e).getD (Real.sqrt (2 * epsSi * qe * n) / cox)
      ({ c with kp := kp, cox := some cox,
                gamma := match c.gamma.get e with | none => .num gamma | some _ => c.gamma,
                phi := match c.phi.get e with | none => .num phi | some _ => c.phi },
       { cox := cox, kp := (c.kp.get e).getD ((gain lv).1 * uo * cox), phi := phi, gamma := gamma,
         vto := match vraw with | some v => some v | none => vtoCalc pol tpg (egap tk) phi gamma nss cox,
         tpg := tpg })

/-- the card after analyses in the states `es` -/
noncomputable def run (lv : Level) (pol tdef : ℝ) : List E → Card E → Card E
  | [], c => c
  | e :: es, c => run lv pol tdef es (precalc lv pol tdef e c).1

/-! ## The size -/

/-- of the device: length, width, areas, squares (d_mos.model:286-304); none is not given -/
structure Line where
  l : Option ℝ
  w : Option ℝ
  ad : Option ℝ
  as : Option ℝ
  nrd : ℝ
  nrs : ℝ

/-- of the card (d_mos_base.model:72-104), with options `defl`, `defw`, `defad`, `defas` -/
structure Geo where
  lmlt : ℝ
  wmlt : ℝ
  xl : ℝ
  xw : ℝ
  ld : ℝ
  del : ℝ
  wd : ℝ
  rd : Option ℝ
  rs : Option ℝ
  rsh : Option ℝ
  is : ℝ
  js : Option ℝ
  defl : ℝ
  defw : ℝ
  defad : ℝ
  defas : ℝ

structure Size where
  l : ℝ
  w : ℝ
  rd : ℝ
  rs : ℝ
  idsat : ℝ
  issat : ℝ

/-- the size dependent parameters (d_mos_base.model:149-191).  `rs` or `rd` alone: the other is 0 (114-124). -/
noncomputable def size (g : Geo) (d : Line) : Size :=
  let ad := d.ad.getD g.defad
  let as := d.as.getD g.defas
  { l := match d.l with | some x => x * g.lmlt + g.xl - 2 * (g.ld + g.del) | none => g.defl
    w := match d.w with | some x => x * g.wmlt + g.xw - 2 * g.wd | none => g.defw
    rd := if g.rd.isSome || g.rs.isSome then g.rd.getD 0 else g.rsh.getD 0 * d.nrd
    rs := if g.rd.isSome || g.rs.isSome then g.rs.getD 0 else g.rsh.getD 0 * d.nrs
    idsat := match g.js with | none => g.is | some j => if ad = 0 ∨ as = 0 then g.is else j * ad
    issat := match g.js with | none => g.is | some j => if ad = 0 ∨ as = 0 then g.is else j * as }

/-- what the message on a conflict says is used (d_mos_base.model:126-130): none is no message -/
noncomputable def told (g : Geo) : Option Bool :=
  if g.rsh.isSome && (g.rd.isSome || g.rs.isSome) then some (decide (g.rd.getD 0 ≤ 0 ∧ g.rs.getD 0 ≤ 0)) else none

/-- gain and mobility at a temperature, of levels 2 and 3 (d_mos2.model:139-140, 148; d_mos3.model:118-119, 127): ratio of temperatures, `kp`, `uo`, size -/
noncomputable def betaT (r kp w l : ℝ) : ℝ := (kp / (r * Real.sqrt r)) * w / l
noncomputable def uoT (r uo : ℝ) : ℝ := uo * (r * Real.sqrt r)

end Gnucap.MosProc
