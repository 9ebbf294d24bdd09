import Mathlib.Algebra.Order.Field.Basic
import Mathlib.Analysis.SpecialFunctions.Pow.Real
import Verif.Util

/-!
# First order polynomials, numerical integration, element time history, truncation error (model)

Exact arithmetic.  `assert`s are not executed (release build); where they matter they are proved or are hypotheses.
-/
namespace Gnucap.Integ

/-! ## m_cpoly.h -/

/-- `struct FPOLY1` (m_cpoly.h:43-67) -/
@[ext] structure FPoly (F : Type _) where
  x : F
  f0 : F
  f1 : F
deriving DecidableEq

/-- `struct CPOLY1` (m_cpoly.h:69-86) -/
@[ext] structure CPoly (F : Type _) where
  x : F
  c0 : F
  c1 : F
deriving DecidableEq

section poly
variable {F : Type _} [Field F]

/-- `FPOLY1(const CPOLY1&)` (m_cpoly.h:88-95) with `CPOLY1::f0`, `f1` (84-85) -/
def CPoly.toF (p : CPoly F) : FPoly F := ⟨p.x, p.c0 + p.x * p.c1, p.c1⟩
/-- `CPOLY1(const FPOLY1&)` (m_cpoly.h:97-107) with `FPOLY1::c0`, `c1` (64-66) -/
def FPoly.toC (p : FPoly F) : CPoly F := ⟨p.x, p.f0 - p.x * p.f1, p.f1⟩
/-- `FPOLY1::operator*=(double)` (m_cpoly.h:57) -/
def FPoly.scale (p : FPoly F) (s : F) : FPoly F := ⟨p.x, p.f0 * s, p.f1 * s⟩
/-- `CPOLY1::operator*=(double)` (m_cpoly.h:83) -/
def CPoly.scale (p : CPoly F) (s : F) : CPoly F := ⟨p.x, p.c0 * s, p.c1 * s⟩
/-- `FPOLY1::operator+=(double)` (m_cpoly.h:59) -/
def FPoly.addC (p : FPoly F) (f : F) : FPoly F := ⟨p.x, p.f0 + f, p.f1⟩
/-- `FPOLY1::operator+=(const FPOLY1&)` (m_cpoly.h:60-61); only meant for equal `x` -/
def FPoly.add (p s : FPoly F) : FPoly F := ⟨p.x, p.f0 + s.f0, p.f1 + s.f1⟩
/-- `FPOLY1::operator-()` (m_cpoly.h:62) -/
def FPoly.neg (p : FPoly F) : FPoly F := ⟨p.x, -p.f0, -p.f1⟩
/-- `operator-(double, FPOLY1)` (m_cpoly.h:140-145) -/
def FPoly.subFrom (a : F) (b : FPoly F) : FPoly F := b.neg.addC a
/-- `FPOLY1::operator*=(const FPOLY1&)` (m_cpoly.h:109-116): scales first, then uses the already scaled `f0`. -/
def FPoly.mul (p s : FPoly F) : FPoly F :=
  let q := p.scale s.f0
  { q with f1 := q.f1 + q.f0 * s.f1 }

end poly

/-! ## Integration -/

/-- `enum METHOD` (e_storag.h:29) -/
inductive Method where
  | trapgear | euler | trap | gear | trapeuler
deriving DecidableEq

/-- `enum method_t` (u_opt.h:34-43) -/
inductive MethodT where
  | unknown | euler | eulerOnly | trap | trapOnly | gear2 | gear2Only | trapgear | trapeuler
deriving DecidableEq

/-- the value of the enumerator, used as an index -/
def MethodT.idx : MethodT → ℕ
  | .unknown => 0 | .euler => 1 | .eulerOnly => 2 | .trap => 3 | .trapOnly => 4
  | .gear2 => 5 | .gear2Only => 6 | .trapgear => 7 | .trapeuler => 8

open Method in
/-- `STORAGE::method_select` (e_storag.cc:32-53), row = OPT::method, column = the element's own -/
def methodTable : List (List Method) :=
  [[trapgear, euler, euler, trap, trap, gear, gear, trapgear, trapeuler],
   [euler, euler, euler, trap, trap, gear, gear, trapgear, trapeuler],
   [euler, euler, euler, euler, trap, euler, gear, euler, euler],
   [trap, euler, euler, trap, trap, gear, gear, trapgear, trapeuler],
   [trap, trap, euler, trap, trap, trap, gear, trap, trap],
   [gear, euler, euler, trap, trap, gear, gear, trapgear, trapeuler],
   [gear, gear, euler, gear, trap, gear, gear, gear, gear],
   [trapgear, euler, euler, trap, trap, gear, gear, trapgear, trapeuler],
   [trapeuler, euler, euler, trap, trap, gear, gear, trapgear, trapeuler]]

/-- `method_select[OPT::method][_method_u]` (e_storag.cc:61,76,87); none = outside the array -/
def methodSelect (opt loc : MethodT) : Option Method := (methodTable[opt.idx]?).bind (·[loc.idx]?)

/-- the phases `differentiate` distinguishes -/
inductive Phase where
  | static | restore | dynamic
deriving DecidableEq

variable {F : Type _} [Field F] [DecidableEq F]

/-- the method really used (e_storag.cc:139-142, 187-193) -/
def usedMethod (time : ℕ → F) (m : Method) : Method := if time 1 = time 2 then .euler else m

/-- `differentiate` (e_storag.cc:127-173) -/
def differentiate (ph : Phase) (q i : ℕ → FPoly F) (time : ℕ → F) (m : Method) : FPoly F :=
  match ph with
  | .static => ⟨(q 0).x, 0, 0⟩
  | .restore => i 0
  | .dynamic =>
    let dt := time 0 - time 1
    match usedMethod time m with
    | .trapgear | .gear =>
      ⟨(q 0).x, (3/2) * ((q 0).f0 - (q 1).f0) / dt - (1/2) * ((q 1).f0 - (q 2).f0) / (time 1 - time 2), (q 0).f1 * (3/2) / dt⟩
    | .trapeuler | .euler => ⟨(q 0).x, ((q 0).f0 - (q 1).f0) / dt, (q 0).f1 / dt⟩
    | .trap => ⟨(q 0).x, 2 * ((q 0).f0 - (q 1).f0) / dt - (i 1).f0, (q 0).f1 * 2 / dt⟩

/-- `STORAGE::tr_c_to_g` (e_storag.cc:175-206); `dt` is `_dt` -/
def trCToG (ph : Phase) (time : ℕ → F) (dt : F) (m : Method) (c g : F) : F :=
  match ph with
  | .static => 0
  | .restore => g
  | .dynamic =>
    match usedMethod time m with
    | .trapgear | .gear => c / dt * (3/2)
    | .trapeuler | .euler => c / dt
    | .trap => c / dt * 2

/-- The charge and companion part of `DEV_CAPACITANCE::do_tr` for a constant capacitance (d_cap.cc:138-157, else branch):
`_y[0].x = v; _y[0].f0 = v*C; _i[0] = differentiate(..); _m0 = CPOLY1(_i[0])`. Gives the new `_i[0]` and `_m0`. -/
def capDoTr (ph : Phase) (C v : F) (y i : ℕ → FPoly F) (time : ℕ → F) (m : Method) : FPoly F × CPoly F :=
  let y' : ℕ → FPoly F := fun k => if k = 0 then ⟨v, v * C, C⟩ else y k
  let i0 := differentiate ph y' i time m
  (i0, i0.toC)

/-! ## Divided differences -/

/-- one assignment `c[i] = d * (c[i-1] - c[i]) / (t[i-d] - t[i])` (m_divdiff.h:53) -/
def ddStep (t : ℕ → F) (d i : ℕ) (c : ℕ → F) : ℕ → F :=
  fun j => if j = i then (d : F) * (c (i - 1) - c i) / (t (i - d) - t i) else c j

/-- `derivatives(c, n, t)` (m_divdiff.h:48-56) -/
def derivatives (n : ℕ) (t : ℕ → F) (c : ℕ → F) : ℕ → F :=
  forRange 1 n (fun d c => forDown (fun i c => ddStep t d i c) d (n - d) c) c

/-! ## Element history -/

/-- `OPT::_keep_time_steps` (u_opt.h:83) -/
def keep : ℕ := 5

/-- The part of ELEMENT that records the past (e_elemnt.h:190-192): `_time`, `_y`, `_dt`. -/
structure Hist (F : Type _) where
  time : ℕ → F
  y : ℕ → FPoly F
  dt : F

/-- the shifting loop of `tr_advance` (e_elemnt.cc:250-254; the same loop for `_i` is e_storag.cc:101-103) -/
def shift {α : Type _} (a : ℕ → α) : ℕ → α :=
  forDown (fun i a => fun j => if j = i then a (i - 1) else a j) 1 (keep - 1) a

/-- `ELEMENT::tr_advance` (e_elemnt.cc:246-258) -/
def trAdvance (t : F) (h : Hist F) : Hist F :=
  let time := shift h.time
  let time' : ℕ → F := fun j => if j = 0 then t else time j
  { time := time', y := shift h.y, dt := time' 0 - time' 1 }

/-- `ELEMENT::tr_regress` (e_elemnt.cc:260-271) -/
def trRegress (t : F) (h : Hist F) : Hist F :=
  let time' : ℕ → F := fun j => if j = 0 then t else h.time j
  { h with time := time', dt := time' 0 - time' 1 }

/-- `ELEMENT::tr_begin` (e_elemnt.cc:177-189), times only; `y0` is the initial `_y[0]`, `nv` is NOT_VALID -/
def trBegin (y0 : FPoly F) (nv : F) : Hist F :=
  { time := fun _ => 0, y := fun k => if k = 0 then y0 else ⟨0, 0, 0⟩, dt := nv }

/-- `SIM::advance_time` (s__solve.cc:151-174) seen by one element; `last` is the static `last_iter_time`. -/
def advanceTime [LinearOrder F] (t0 last : F) (h : Hist F) : Hist F × F :=
  (if 0 < t0 then (if last < t0 then trAdvance t0 h else trRegress t0 h) else h, t0)

/-! ## Truncation error -/

/-- The options and simulator data used (u_opt.h, u_sim_data.h). -/
structure TeOpt where
  chgtol : ℝ
  reltol : ℝ
  trtol : ℝ
  trreject : ℝ
  dtmin : ℝ
  never : ℝ       -- the constant NEVER

/-- the choice of the derivative (e_elemnt.cc:487-502); `ord` is `order()` -/
def errorDeriv {F : Type _} [LinearOrder F] (ord : ℤ) (time : ℕ → F) : ℕ :=
  let e0 : ℕ := if ord ≥ (keep : ℤ) - 2 then keep - 1 else if ord < 0 then 1 else (ord + 1).toNat
  forDown (fun i e => if time (i - 1) ≤ time i then i - 1 else e) 1 e0 e0

open Classical in
/-- `ELEMENT::tr_review_trunc_error` (e_elemnt.cc:480-543) -/
noncomputable def truncError (o : TeOpt) (ord : ℤ) (ef : ℝ) (time : ℕ → ℝ) (q : ℕ → FPoly ℝ) : ℝ :=
  if time 0 ≤ 0 then o.never
  else
    let e := errorDeriv ord time
    let c := derivatives keep time (fun i => (q i).f0)
    if c e = 0 then o.never
    else
      let chargetol := max o.chgtol (o.reltol * max |(q 0).f0| |(q 1).f0|)
      let tol := o.trtol * chargetol
      let denom := ef * |c e|
      match e with
      | 1 => tol / denom
      | 2 => Real.sqrt (tol / denom)
      | 3 => (tol / denom) ^ ((1 : ℝ) / 3)       -- cbrt of a positive number
      | e => (tol / denom) ^ ((1 : ℝ) / (e : ℝ))

open Classical in
/-- `ELEMENT::tr_review_check_and_convert` (e_elemnt.cc:545-576) -/
noncomputable def checkAndConvert (o : TeOpt) (h : Hist ℝ) (timestep : ℝ) : ℝ :=
  if timestep = o.never then o.never
  else
    let ts := if timestep < o.dtmin then o.dtmin else timestep
    if ts < h.dt * o.trreject then h.time 1 + ts else h.time 0 + ts

/-! ## Time pairs -/

/-- `struct TIME_PAIR` (u_time_pair.h:28-67) -/
@[ext] structure TimePair (F : Type _) where
  err : F
  event : F

section tp
variable {F : Type _} [LinearOrder F]
/-- `min_error_estimate` (u_time_pair.h:47-53) -/
def TimePair.minErr (p : TimePair F) (e : F) : TimePair F := if e < p.err then { p with err := e } else p
/-- `min_event` (u_time_pair.h:54-60) -/
def TimePair.minEvent (p : TimePair F) (e : F) : TimePair F := if e < p.event then { p with event := e } else p
/-- `min(const TIME_PAIR&)` (u_time_pair.h:61-63) -/
def TimePair.min (p q : TimePair F) : TimePair F := (p.minErr q.err).minEvent q.event

/-- A circuit as `CARD_LIST::tr_review` sees it: a card reviews itself, or (a subcircuit) reviews its own list. -/
inductive Cards (F : Type _) where
  | nil
  | card (p : TimePair F) (rest : Cards F)
  | sub (inner : Cards F) (rest : Cards F)

/-- `CARD_LIST::tr_review` (e_cardlist.cc:362-371): `time_by` starts at (NEVER, NEVER); each card that is a device contributes.
A subcircuit's `tr_review` returns its list's (e_subckt.h:62). -/
def tr_review (never : F) : Cards F → TimePair F → TimePair F
  | .nil, acc => acc
  | .card p rest, acc => tr_review never rest (acc.min p)
  | .sub inner rest, acc => tr_review never rest (acc.min (tr_review never inner ⟨never, never⟩))

end tp
end Gnucap.Integ
