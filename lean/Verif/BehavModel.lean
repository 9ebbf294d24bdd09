import Verif.IntegModel
import Mathlib.Analysis.SpecialFunctions.Pow.Real
import Mathlib.Analysis.SpecialFunctions.Trigonometric.Basic
import Mathlib.Analysis.SpecialFunctions.Complex.Circle

/-!
# The behavioural functions (model)

`EVAL_BM_ACTION_BASE` (include/bm.h:49-84, lib/bm.cc) with its modifiers `scale`, `tc1`, `tc2`, `ioffset`, `ooffset`, `ic`,
`bandwidth`, `phase`, `delay`, and `tr_eval` of POLY, POSY, TANH, FIT, TABLE, EXP, SFFM.  `tr_eval` gets the input of the
element in `_y[0].x` and leaves value and slope in `_y[0].f0`, `_y[0].f1`; also `_y[0].x` may be left changed.
Exact arithmetic; PULSE, SIN and PWL have their own models (SourceModel, InterpModel), the spline is in SplineModel.
-/
namespace Gnucap.Behav
open Gnucap.Integ

/-- The modifiers, as evaluated by `precalc_last` (bm.cc:155-172); `icNow` is `_ic` while `_sim->uic_now()`, else `none`
(bm.h:69, u_sim_data.h:185); `dT` is `_temp_c - _tnom_c`. -/
structure Mods (F : Type _) where
  scale : F
  tc1 : F
  tc2 : F
  dT : F
  ioff : F
  ooff : F
  icNow : Option F

section
variable {F : Type _} [Field F]

/-- `EVAL_BM_ACTION_BASE::temp_adjust` (bm.cc:69-73) -/
def Mods.temp (m : Mods F) : F := m.scale * (1 + m.tc1 * m.dT + m.tc2 * m.dT * m.dT)

/-- `EVAL_BM_ACTION_BASE::ioffset` with `uic` (bm.h:69-70) -/
def Mods.shift (m : Mods F) (x : F) : F := m.icNow.getD x + m.ioff

/-- `EVAL_BM_ACTION_BASE::tr_final_adjust` (bm.cc:75-84) -/
def Mods.final (m : Mods F) (isValue : Bool) (y : FPoly F) : FPoly F :=
  let y := if isValue then { y with f1 := y.f0, f0 := 0 } else y
  (y.scale m.temp).addC m.ooff

/-- `tr_eval` of POLY, POSY and TANH around the computation of value and slope (bm_poly.cc:125, 149-150, bm_posy.cc:139,
194-195, bm_tanh.cc:103, 117-118) -/
def Mods.eval (m : Mods F) (isValue : Bool) (core : F → F × F) (x : F) : FPoly F :=
  let x := m.shift x
  m.final isValue ⟨x, (core x).1, (core x).2⟩

/-- `tr_eval` of FIT (bm_fit.cc:163-167) and of TABLE (bmm_table.cc:126-130, 246-251): the spline is read at `_y[0].x`
itself -/
def Mods.evalFit (m : Mods F) (isValue : Bool) (core : F → F × F) (x : F) : FPoly F :=
  m.final isValue ⟨x, (core x).1, (core x).2⟩

/-- `EVAL_BM_ACTION_BASE::tr_finish_tdv` (bm.cc:86-90): the end of `tr_eval` of the functions of time, and of VALUE, COMPLEX
and GENERATOR -/
def Mods.tdv (m : Mods F) (val : F) (x : F) : FPoly F :=
  m.final false (CPoly.toF ⟨m.shift x, 0, val⟩)

/-- `_y[0].x` and the slope `_ev` after `n+1` calls of `EVAL_BM_ACTION_BASE::ac_eval` (bm.cc:174-179): one call for every
frequency (d_admit.cc:168-180 `do_ac`), each running `tr_eval` on the `_y[0]` left by the one before.  Before
`ac_final_adjust`. -/
def acEvals (tr : F → FPoly F) : ℕ → F → FPoly F
  | 0, x => tr x
  | n + 1, x => tr (acEvals tr n x).x

/-! ## POLY -/

/-- the loop of `EVAL_BM_POLY::tr_eval` (bm_poly.cc:128-133), from `i` down to 1, on `(f0, f1)` -/
def polyLoop (c : List F) (x : F) : ℕ → F × F → F × F
  | 0, s => s
  | i + 1, s => polyLoop c x i ((s.1 + c.getD (i + 1) 0) * x, s.2 * x + c.getD (i + 1) 0 * ((i + 1 : ℕ) : F))

/-- bm_poly.cc:126-134.  Without coefficients `_c.size()-1` wraps around, and the loop reads out of bounds: `none`. -/
def polySum (c : List F) (x : F) : Option (F × F) :=
  match c with
  | [] => none
  | c0 :: _ =>
    let s := polyLoop c x (c.length - 1) (0, 0)
    some (s.1 + c0, s.2)

end

section
variable {F : Type _} [Field F] [LinearOrder F]

/-- `_abs`, `_max`, `_min` of POLY and POSY -/
structure Lim (F : Type _) where
  abs : Bool
  min : F
  max : F

/-- the end of `tr_eval` of POLY (bm_poly.cc:136-147) and of POSY (bm_posy.cc:178-192) -/
def Lim.apply (l : Lim F) (f : F × F) : F × F :=
  let f := if l.abs ∧ f.1 < 0 then (-f.1, -f.2) else f
  if f.1 > l.max then (l.max, 0)
  else if f.1 < l.min then (l.min, 0)
  else f

/-- `EVAL_BM_POLY::tr_eval` (bm_poly.cc:123-151) -/
def polyEval (m : Mods F) (l : Lim F) (c : List F) (isValue : Bool) (x : F) : Option (FPoly F) :=
  match polySum c (m.shift x) with
  | none => none
  | some f =>
    let f := l.apply f
    some (m.final isValue ⟨m.shift x, f.1, f.2⟩)

end

/-! ## POSY, TANH: real numbers -/

noncomputable section

/-- bm_posy.cc:147-165 at `x ≥ 0`; the table holds exponent and coefficient -/
def posySum (t : List (ℝ × ℝ)) (x : ℝ) : ℝ × ℝ :=
  if x > 0 then
    t.foldl (fun f p => let coeff := p.2 * x ^ (p.1 - 1); (f.1 + coeff * x, f.2 + coeff * p.1)) (0, 0)
  else
    t.foldl (fun f p => if p.1 = 0 then (f.1 + 1, f.2) else f) (0, 0)

/-- bm_posy.cc:141-143, 169-175 -/
def posyCore (odd even : Bool) (t : List (ℝ × ℝ)) (xRaw : ℝ) : ℝ × ℝ :=
  let x := if xRaw < 0 then (if odd || even then -xRaw else 0) else xRaw
  let f := posySum t x
  let f := if odd ∧ xRaw < 0 then (-f.1, f.2) else f
  if even ∧ xRaw < 0 then (f.1, -f.2) else f

/-- `EVAL_BM_POSY::tr_eval` (bm_posy.cc:137-197) -/
def posyEval (m : Mods ℝ) (l : Lim ℝ) (odd even : Bool) (t : List (ℝ × ℝ)) (isValue : Bool) (x : ℝ) : FPoly ℝ :=
  m.eval isValue (fun x => l.apply (posyCore odd even t x)) x

/-- bm_tanh.cc:104-116; `big` is LOGBIGBIG (constant.h:103) -/
def tanhCore (big gain limit x : ℝ) : ℝ × ℝ :=
  let aa := x * gain / limit
  if aa > big then (limit, 0)
  else if aa < -big then (-limit, 0)
  else
    let cosine := Real.cosh aa
    (limit * Real.tanh aa, gain / (cosine * cosine))

/-- `EVAL_BM_TANH::tr_eval` (bm_tanh.cc:101-119) -/
def tanhEval (m : Mods ℝ) (big gain limit : ℝ) (isValue : Bool) (x : ℝ) : FPoly ℝ :=
  m.eval isValue (tanhCore big gain limit) x

/-! ## EXP, SFFM -/

/-- The parameters of EXP (bm_exp.cc:45-52) -/
structure Exp where
  iv : ℝ
  pv : ℝ
  td1 : ℝ
  tau1 : ℝ
  td2 : ℝ
  tau2 : ℝ
  period : ℝ

/-- `exp(-d/tau)` for `d > 0`; with the default `tau` of 0 (bm_exp.cc:35, 37) this is `exp(-inf)` -/
def expNeg (d tau : ℝ) : ℝ := if tau = 0 then 0 else Real.exp (-d / tau)

/-- what one turn of the loop adds (bm_exp.cc:144-151), at `time` -/
def Exp.add (e : Exp) (time : ℝ) (ev : ℝ) : ℝ :=
  let ev := if time > e.td1 then ev + (e.pv - e.iv) * (1 - expNeg (time - e.td1) e.tau1) else ev
  if time > e.td2 then ev + (e.iv - e.pv) * (1 - expNeg (time - e.td2) e.tau2) else ev

/-- the loop (bm_exp.cc:143-152), with as many turns as there is fuel; `none` if that is not enough -/
def Exp.loop (e : Exp) : ℕ → ℝ → ℝ → Option ℝ
  | 0, time, ev => if time ≥ 0 then none else some ev
  | n + 1, time, ev => if time ≥ 0 then e.loop n (time - e.period) (e.add time ev) else some ev

/-- The value computed by `EVAL_BM_EXP::tr_eval` (bm_exp.cc:140-154), for `n` turns of the loop at most -/
def Exp.value (e : Exp) (n : ℕ) (time0 : ℝ) : Option ℝ := e.loop n time0 e.iv

/-- The parameters of SFFM (bm_sffm.cc:46-54) -/
structure Sffm where
  offset : ℝ
  amplitude : ℝ
  carrier : ℝ
  modindex : ℝ
  signal : ℝ

/-- The value computed by `EVAL_BM_SFFM::tr_eval` (bm_sffm.cc:148-154) -/
def Sffm.value (s : Sffm) (time : ℝ) : ℝ :=
  let mod := s.modindex * Real.sin (2 * Real.pi * s.signal * time)
  s.offset + s.amplitude * Real.sin (2 * Real.pi * s.carrier * time + mod)

/-! ## AC -/

/-- `_bandwidth` (`none`: NOT_INPUT), `_phase`, `_delay` -/
structure AcMods where
  bandwidth : Option ℝ
  phase : ℝ
  delay : ℝ

/-- `DTOR` (constant.h:54) -/
def dtor : ℝ := Real.pi / 180

/-- `std::polar(1., a)` -/
def polar (a : ℝ) : ℂ := ⟨Real.cos a, Real.sin a⟩

/-- `EVAL_BM_ACTION_BASE::ac_final_adjust` (bm.cc:92-117); the assert about the imaginary part is compiled out -/
def AcMods.final (m : AcMods) (freq : ℝ) (y : ℂ) : ℂ :=
  let y : ℂ := match m.bandwidth with
    | none => y
    | some b => if b ≠ 0 then
        let ratio := freq / b
        let coeff := y.re / (1 + ratio * ratio)
        ⟨coeff, -coeff * ratio⟩
      else y
  let y := if m.phase ≠ 0 then y * polar (m.phase * dtor) else y
  if m.delay ≠ 0 then
    let ratio := freq * m.delay
    let ratio := if ratio > 100000 then 0 else ratio
    y * polar (-360 * dtor * ratio)
  else y

end

end Gnucap.Behav
