import Mathlib.Analysis.SpecialFunctions.Trigonometric.Basic
import Verif.Util

/-!
# The fast Fourier transform (`lib/m_fft.cc`) and its use by the `fourier` command (`apps/s_fo.cc`)

The array `COMPLEX* x` is a function of the index; a write is `Function.update`.  Numbers are complex
numbers (rounding is not modelled), `cos` and `sin` are the real functions, `M_TWO_PI` is `2 π`.
The lengths and indices are natural numbers.
-/
namespace Gnucap.Fft
open Complex

noncomputable section

/-- `COMPLEX w(cos(argg), s*sin(argg))` with `argg = m * wpwr`, `wpwr = M_TWO_PI / nxp`
(`lib/m_fft.cc:33-36`) -/
def twiddle (s : ℝ) (nxp m : ℕ) : ℂ :=
  ⟨Real.cos (m * (2 * Real.pi / nxp)), s * Real.sin (m * (2 * Real.pi / nxp))⟩

/-- the body of the inner loop, `t = x[jj1] - x[jj2]; x[jj1] += x[jj2]; x[jj2] = t * w;`
(`lib/m_fft.cc:38-41`) -/
def butterfly (w : ℂ) (j1 j2 : ℕ) (x : ℕ → ℂ) : ℕ → ℂ :=
  let t := x j1 - x j2
  let x1 := Function.update x j1 (x j1 + x j2)
  Function.update x1 j2 (t * w)

/-- `for (int jj1 = m; jj1+nxp-m <= n; jj1 += nxp)` (`lib/m_fft.cc:37-42`).  The loop is only entered
with `nxp/2 > 0`; for `nxp = 0` (never the case) the recursion stops. -/
def inner (w : ℂ) (n nxp m jj1 : ℕ) (x : ℕ → ℂ) : ℕ → ℂ :=
  if 0 < nxp ∧ jj1 + nxp - m ≤ n then
    inner w n nxp m (jj1 + nxp) (butterfly w jj1 (jj1 + nxp / 2) x)
  else x
termination_by n + m - jj1

/-- `for (int m = 0; m < nxp2; ++m)` (`lib/m_fft.cc:34-43`) -/
def stage (s : ℝ) (n nxp : ℕ) (x : ℕ → ℂ) : ℕ → ℂ :=
  forRange 0 (nxp / 2) (fun m x => inner (twiddle s nxp m) n nxp m m x) x

/-- `for (nxp=n; (nxp2=nxp/2) > 0; nxp=nxp2)` (`lib/m_fft.cc:32-44`) -/
def stages (s : ℝ) (n nxp : ℕ) (x : ℕ → ℂ) : ℕ → ℂ :=
  if 0 < nxp / 2 then stages s n (nxp / 2) (stage s n nxp x) else x
termination_by nxp

/-- `for (k = n/2; k <= j; k /= 2) { j -= k; }  j += k;` (`lib/m_fft.cc:52-56`).  `none`: with `k = 0`
the condition stays true and the loop never ends. -/
def revInc (k j : ℕ) : Option ℕ :=
  if k ≤ j then (if k = 0 then none else revInc (k / 2) (j - k)) else some (j + k)
termination_by k
decreasing_by omega

/-- `swap(x[i],x[j])` (`lib/m_fft.cc:50`) -/
def swapAt (i j : ℕ) (x : ℕ → ℂ) : ℕ → ℂ := Function.update (Function.update x i (x j)) j (x i)

/-- one turn of the loop that puts the results in order (`lib/m_fft.cc:49-56`); `none`: it hangs -/
def unscrambleStep (n i : ℕ) (st : Option (ℕ × (ℕ → ℂ))) : Option (ℕ × (ℕ → ℂ)) :=
  st.bind fun (j, x) =>
    let x := if i < j then swapAt i j x else x
    (revInc (n / 2) j).map fun j => (j, x)

/-- `for (i = j = 0; i < n-1; ++i)` (`lib/m_fft.cc:46-58`) -/
def unscramble (n : ℕ) (x : ℕ → ℂ) : Option (ℕ → ℂ) :=
  (forRange 0 (n - 1) (unscrambleStep n) (some (0, x))).map Prod.snd

/-- `for (int i = 0; i < n; ++i) x[i] /= n;` (`lib/m_fft.cc:61-63`) -/
def level (n : ℕ) (x : ℕ → ℂ) : ℕ → ℂ :=
  forRange 0 n (fun i x => Function.update x i (x i / n)) x

/-- `fft(x, n, inv)` (`lib/m_fft.cc:28-66`); `none`: the call does not come back -/
def fft (x : ℕ → ℂ) (n : ℕ) (inv : Bool) : Option (ℕ → ℂ) :=
  let s : ℝ := if inv then 1 else -1
  (unscramble n (stages s n n x)).map fun x => if inv then x else level n x

/-- `for (y = 1; x > 0; x >>= 1) { y <<= 1; }` in `to_pow_of_2` (`apps/s_fo.cc:349-357`); the width of
`int` is not modelled -/
def powLoop (x y : ℕ) : ℕ := if 0 < x then powLoop (x / 2) (2 * y) else y
termination_by x

/-- `to_pow_of_2` (`apps/s_fo.cc:349-357`): `int(floor(Z))`, a negative number gives no turn -/
def toPowOf2 (Z : ℝ) : ℕ := powLoop ⌊Z⌋.toNat 1

/-- `stepnum(Start, Step, Here)` (`apps/s_fo.cc:201-204`): the conversion to `int` drops the fraction,
towards zero -/
def stepnum (start step here : ℝ) : ℤ :=
  let r := (here - start) / step + 1 / 2
  if 0 ≤ r then ⌊r⌋ else ⌈r⌉

/-- `find_max(Data, Start, Stop)` (`apps/s_fo.cc:208-219`); the loop does nothing if `Stop < Start` -/
def findMax (data : ℕ → ℂ) (start stop : ℕ) : ℂ :=
  forRange start (stop + 1) (fun i m => if ‖m‖ < ‖data i‖ then data i else m) 0

/-- What `foprint` shows in one line, before formatting (`apps/s_fo.cc:181-196`): frequency, `unscaled`
(whose magnitude, dB and phase after a turn by 90 degrees are printed) and `scaled`. -/
structure Row where
  freq : ℝ
  actual : ℂ
  relative : ℂ

/-- one line: `unscaled = Data[ii]; scaled = unscaled / maxvalue; unscaled *= 2`
(`apps/s_fo.cc:182-187`) -/
def row (fstep : ℝ) (data : ℕ → ℂ) (maxvalue : ℂ) (i : ℕ) : Row :=
  ⟨fstep * i, data i * 2, data i / maxvalue⟩

/-- `foprint(Data)` (`apps/s_fo.cc:169-197`) from `startstep` to `stopstep` -/
def foprint (fstep : ℝ) (startstep stopstep : ℕ) (data : ℕ → ℂ) : List Row :=
  let maxvalue := findMax data (max 1 startstep) stopstep
  let maxvalue := if maxvalue = 0 then 1 else maxvalue
  let data := Function.update data 0 (data 0 / 2)
  (List.range (stopstep + 1 - startstep)).map fun k => row fstep data maxvalue (startstep + k)

/-- The number of points of the transform, `_timesteps-1` (`apps/s_fo.cc:295,149`) -/
def points (fstep fstop : ℝ) : ℕ := toPowOf2 (fstop * 2 / fstep)

/-- `_tstrobe` (`apps/s_fo.cc:304`) -/
def strobe (fstep fstop : ℝ) : ℝ := 1 / fstep / points fstep fstop

/-- `final` for one probe whose values at the stored time steps are `data`
(`apps/s_fo.cc:139-153`): `fft(_fdata[ii], _timesteps-1, 0); foprint(_fdata[ii])` -/
def final (fstart fstop fstep : ℝ) (data : ℕ → ℂ) : Option (List Row) :=
  (fft data (points fstep fstop) false).map
    (foprint fstep (stepnum 0 fstep fstart).toNat (stepnum 0 fstep fstop).toNat)

end
end Gnucap.Fft
