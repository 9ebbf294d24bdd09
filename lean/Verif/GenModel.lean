import Mathlib.Analysis.SpecialFunctions.Trigonometric.Basic
import Verif.OptModel

/-!
# The generator (C85)

The `generator` command (c_genrat.cc:31-85), and the waveform `gen()` (c_genrat.cc:88-123), which a
transient analysis computes at every time point (s_tr_swp.cc:111, 149) and the sources of bm_generator.cc have as their value.

Simplifications: exact arithmetic; the waveform over ℝ with the sine of Mathlib; a division by 0 is an outcome of its own (`none`).
What the command lists is left out.
-/
namespace Gnucap.Gen
open Gnucap.Scan Gnucap.Num

/-- the variables (c_genrat.cc:31-42) -/
inductive Var where
  | freq | ampl | phaz | maxv | minv | offset | init | rise | fall | delay | width | period
  deriving DecidableEq

/-- the values at the start of the program (c_genrat.cc:31-42) -/
def initial : Var → ℚ
  | .freq => 0
  | .ampl => 1
  | .phaz => 0
  | .maxv => 1
  | .minv => 0
  | .offset => 0
  | .init => 0
  | .rise => 1 / 10 ^ 12
  | .fall => 1 / 10 ^ 12
  | .delay => 0
  | .width => 0
  | .period => 0

/-! ## The command -/

/-- the names, the variables, and whether the absolute value is taken (c_genrat.cc:53-64) -/
def table : List (List Char × Var × Bool) := [
  (['f', '{', 'r', 'e', 'q', 'u', 'e', 'n', 'c', 'y', '}'], .freq, true),
  (['a', '{', 'm', 'p', 'l', 'i', 't', 'u', 'd', 'e', '}'], .ampl, false),
  (['p', '{', 'h', 'a', 's', 'e', '}'], .phaz, false),
  (['m', 'a', '{', 'x', '}'], .maxv, false),
  (['m', 'i', '{', 'n', '}'], .minv, false),
  (['o', '{', 'f', 'f', 's', 'e', 't', '}'], .offset, false),
  (['i', '{', 'n', 'i', 't', 'i', 'a', 'l', '}'], .init, false),
  (['r', '{', 'i', 's', 'e', '}'], .rise, true),
  (['f', '{', 'a', 'l', 'l', '}'], .fall, true),
  (['d', '{', 'e', 'l', 'a', 'y', '}'], .delay, true),
  (['w', '{', 'i', 'd', 't', 'h', '}'], .width, true),
  (['p', 'e', '{', 'r', 'i', 'o', 'd', '}'], .period, true)]

/-- `key + " {=}"` (ap_get.cc:67, ap.h:174) -/
def pattern (key : List Char) : List Char := key ++ [' ', '{', '=', '}']

/-- The alternatives in order (c_genrat.cc:52-65) with `Get` (ap_get.cc:65-81, ap.h:171-180): the variables and the text that is left;
`none`: undefined behaviour in the scanner. -/
def tryAll (u : Units) (ci : Bool) (g : Var → ℚ) (s : List Char) : List (List Char × Var × Bool) → Option ((Var → ℚ) × List Char)
  | [] => some (g, s)
  | (key, v, pos) :: l =>
    match umatch ci (pattern key) s with
    | .ok r => (Opt.number u r).map fun x => (Function.update g v (if pos then |x.1| else x.1), x.2)
    | .fail => tryAll u ci g s l
    | .ub => none

/-- how the loop ended -/
inductive End where
  | done (g : Var → ℚ) (rest : List Char)
  | ub
  | running

/-- The loop (c_genrat.cc:50-66); `here` is how much text there was at the last look, `n` bounds the rounds.  `more` skips blanks,
`stuck` compares (ap.h:73, 86). -/
def loop (u : Units) (ci : Bool) : ℕ → (Var → ℚ) → ℕ → List Char → End
  | 0, _, _, _ => .running
  | n + 1, g, here, s =>
    match tryAll u ci g s table with
    | none => .ub
    | some (g', r) =>
      if skipbl r = [] then .done g' []
      else if (skipbl r).length < here then loop u ci n g' (skipbl r).length (skipbl r)
      else .done g' (skipbl r)

/-- the command -/
def command (u : Units) (ci : Bool) (n : ℕ) (g : Var → ℚ) (s : List Char) : End := loop u ci n g s.length s

/-! ## The waveform -/

/-- a quotient of doubles; `none`: the divisor is 0 -/
noncomputable def quot (a b : ℝ) : Option ℝ := if b = 0 then none else some (a / b)

/-- `fmod` of a number that is not negative (c_genrat.cc:97) -/
noncomputable def fmod (x p : ℝ) : ℝ := x - p * ⌊x / p⌋

/-- the amplitude, with the sine (c_genrat.cc:117-119); `DTOR` is π/180 -/
noncomputable def carrier (g : Var → ℝ) (t : ℝ) : ℝ :=
  if g .freq = 0 then g .ampl
  else g .ampl * Real.sin (2 * Real.pi * g .freq * (t - g .delay) + g .phaz * (Real.pi / 180))

/-- `gen()` (c_genrat.cc:88-123) at the time `t` -/
noncomputable def gen (g : Var → ℝ) (t : ℝ) : Option ℝ :=
  if t ≤ g .delay then some (g .init)
  else
    let loctime := if 0 < g .period then fmod (t - g .delay) (g .period) else t - g .delay
    if t ≤ g .delay + g .rise then
      (quot loctime (g .rise)).map fun q => (g .maxv - 0) * q + 0
        |> fun level => level * carrier g t + (g .offset - g .init) * q + g .init
    else
      (if loctime ≤ g .rise then (quot loctime (g .rise)).map fun q => (g .maxv - g .minv) * q + g .minv
       else if g .width = 0 ∨ loctime - g .rise ≤ g .width then some (g .maxv)
       else if loctime - g .rise - g .width ≤ g .fall then
         (quot (loctime - g .rise - g .width) (g .fall)).map fun q => (g .minv - g .maxv) * q + g .maxv
       else some (g .minv)).map fun level => level * carrier g t + g .offset

end Gnucap.Gen
