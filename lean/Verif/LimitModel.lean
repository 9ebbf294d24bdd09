import Mathlib.Algebra.Order.Field.Basic
import Mathlib.Analysis.SpecialFunctions.Log.Basic

/-!
# Voltage limiting (model of u_limit.h)
-/
namespace Gnucap.Limit
variable {F : Type _} [Field F] [LinearOrder F]

/-- `fet_limit_vds` (u_limit.h:50-69) -/
def fetLimitVds (vnew vold : F) : F :=
  if 7 / 2 ≤ vold then
    if 3 * vold + 2 < vnew then 3 * vold + 2
    else if vnew < 2 then 2
    else vnew
  else
    if 4 < vnew then 4
    else if vnew < -(1 / 2) then -(1 / 2)
    else vnew

/-- `fet_limit_vgs` (u_limit.h:71-115); the last branch (NaN) cannot be taken here -/
def fetLimitVgs (vnew vold vto : F) : F :=
  let vgstOld := vold - vto
  let vgstNew := vnew - vto
  let v :=
    if 7 / 2 ≤ vgstOld then
      if vgstNew < 2 then 2 else if 3 * vgstOld + 2 < vgstNew then 3 * vgstOld + 2 else vgstNew
    else if 0 ≤ vgstOld then
      if vgstNew < -(1 / 2) then -(1 / 2) else if 4 < vgstNew then 4 else vgstNew
    else
      if vgstNew < 3 * vgstOld - 2 then 3 * vgstOld - 2 else if 1 / 2 < vgstNew then 1 / 2 else vgstNew
  v + vto

/-- `pnj_limit` (u_limit.h:30-48), in the reals.  `log` of a number that is not positive is NaN in the code; here it is excluded by
the hypotheses of the theorems. -/
noncomputable def pnjLimit (vnew vold vt vcrit : ℝ) : ℝ :=
  if vcrit < vnew ∧ 2 * vt < |vnew - vold| then
    if 0 < vold then
      let arg := 1 + (vnew - vold) / vt
      if 0 < arg then vold + vt * Real.log arg else vcrit
    else vt * Real.log (vnew / vt)
  else vnew

end Gnucap.Limit
