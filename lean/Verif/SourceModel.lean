import Mathlib.Algebra.Order.Floor.Ring
import Mathlib.Algebra.Order.Floor.Semiring
import Mathlib.Algebra.Order.Field.Basic
import Mathlib.Analysis.SpecialFunctions.Trigonometric.Basic
import Mathlib.Data.Rat.Floor

/-!
# Pulse and sine sources (model of apps/bm_pulse.cc, apps/bm_sin.cc)

`tr_final_adjust` (scale, temperature, output offset; lib/bm.cc:75-85) is not modelled.  `big` is `BIGBIG`.
-/
namespace Gnucap.Source

section pulse
variable {F : Type _} [Field F] [LinearOrder F] [IsStrictOrderedRing F] [FloorRing F]

/-- The parameters after `precalc_last` (bm_pulse.cc:127-146). -/
structure Pulse (F : Type _) where
  iv : F
  pv : F
  delay : F
  rise : F
  fall : F
  width : F
  period : F

/-- `EVAL_BM_PULSE::precalc_last` (bm_pulse.cc:127-146): a width or period of 0 means the default, `BIGBIG`. -/
def Pulse.precalc (big : F) (p : Pulse F) : Pulse F :=
  { p with
    width := if p.width = 0 then big else p.width
    period := if p.period = 0 then big else p.period }

/-- C `fmod(x, y)` for `0 ≤ x`, `0 < y` -/
def fmod (x y : F) : F := x - y * ⌊x / y⌋

/-- the relative time in `tr_eval` and `tr_review` (bm_pulse.cc:158-163,189-194) -/
def Pulse.reltime (big : F) (p : Pulse F) (raw : F) : F :=
  if 0 < p.period ∧ p.period < big then fmod (raw - p.delay) p.period else raw - p.delay

/-- `EVAL_BM_PULSE::tr_eval` (bm_pulse.cc:149-180) -/
def Pulse.eval (big : F) (p : Pulse F) (raw : F) : F :=
  if raw ≤ p.delay then p.iv
  else
    let r := p.reltime big raw
    if r < p.rise then p.iv + r / p.rise * (p.pv - p.iv)
    else if r ≤ p.rise + p.width then p.pv
    else if r < p.rise + p.width + p.fall then p.pv + (r - (p.rise + p.width)) / p.fall * (p.iv - p.pv)
    else p.iv

/-- the event announced by `EVAL_BM_PULSE::tr_review` (bm_pulse.cc:182-215) -/
def Pulse.review (big dtmin : F) (p : Pulse F) (time0 : F) : F :=
  let raw := time0 + dtmin * 2
  if raw ≤ p.delay then p.delay
  else
    let r := p.reltime big raw
    let offset := raw - r
    if r < p.rise then p.rise + offset
    else if r < p.rise + p.width then p.rise + p.width + offset
    else if r < p.rise + p.width + p.fall then p.rise + p.width + p.fall + offset
    else p.period + offset

end pulse

/-! ### sine -/

/-- The parameters of the sine source (bm_sin.cc:45-53); `freq` is `_actual_frequency` (bm_sin.cc:153-157). -/
structure Sin where
  offset : ℝ
  amplitude : ℝ
  freq : ℝ
  delay : ℝ
  damping : ℝ
  samples : ℝ
  zero : Bool
  peak : Bool
  ioffset : ℝ

open Classical in
/-- `EVAL_BM_SIN::tr_eval` (bm_sin.cc:151-171); `tol` is `roundofftol` of `fixzero`; not during "uic". -/
noncomputable def Sin.eval (tol : ℝ) (s : Sin) (time0 : ℝ) : ℝ :=
  let rel := time0 + s.ioffset
  if rel > s.delay then
    let w := Real.sin (2 * Real.pi * s.freq * (rel - s.delay))
    let x := s.amplitude * (if |w| < |1 * tol| then 0 else w)
    s.offset + (if s.damping ≠ 0 then x * Real.exp (-(rel - s.delay) * s.damping) else x)
  else s.offset

open Classical in
/-- The event announced by `EVAL_BM_SIN::tr_review` (bm_sin.cc:173-198), `none`: none. -/
noncomputable def Sin.event (s : Sin) (time0 : ℝ) : Option ℝ :=
  let rel := time0 + s.ioffset + 1e-6 / s.freq
  if rel > s.delay then
    if s.peak ∧ s.zero then some (⌊rel * 4 * s.freq + 1⌋ / (4 * s.freq))
    else if s.peak then some ((⌊rel * 2 * s.freq + 0.5⌋ + 0.5) / (2 * s.freq))
    else if s.zero then some (⌊rel * 2 * s.freq + 1⌋ / (2 * s.freq))
    else none
  else some s.delay

end Gnucap.Source
