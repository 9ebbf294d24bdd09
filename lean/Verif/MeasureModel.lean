import Mathlib.Algebra.Order.Field.Basic
import Mathlib.Data.List.Induction
import Mathlib.Algebra.Order.Field.Rat

/-!
# Measurements on stored waveforms (model of apps/measure_*.cc)

A waveform is the list of its recorded points (time, value).  `big` is `BIGBIG`.  The result is the number before it is printed
(C46 is about printing).
-/
namespace Gnucap.Measure
variable {F : Type _} [Field F] [LinearOrder F]

abbrev Pt (F : Type _) := F × F

/-- a number, not a number (0/0), or reading beyond the end of the waveform -/
inductive Res (F : Type _) where
  | num (x : F)
  | nan
  | ub
deriving DecidableEq

/-- From `lower_bound(.., DPAIR(after,-BIGBIG))` to `upper_bound(.., DPAIR(before,BIGBIG))` (measure_max.cc:69-70 and the same
lines in the others), for a waveform in order of time.  If the first lies behind the second, no loop runs. -/
def window (w : List (Pt F)) (after before : F) : List (Pt F) :=
  (w.takeWhile (fun p => decide (p.1 ≤ before))).dropWhile (fun p => decide (p.1 < after))

/-- `begin == w->end()` -/
def beyond (w : List (Pt F)) (after : F) : Bool := (w.dropWhile (fun p => decide (p.1 < after))).isEmpty

/-- the loop of measure_integral.cc:67-70 and measure_average.cc:67-72: area and `lower` -/
def areaLoop : Pt F → F → List (Pt F) → F × Pt F
  | lower, area, [] => (area, lower)
  | lower, area, i :: r => areaLoop i (area + 1 / 2 * (lower.2 + i.2) * (i.1 - lower.1)) r

/-- `integral` (measure_integral.cc:62-71) -/
def integral (w : List (Pt F)) (after before : F) : Res F :=
  match window w after before with
  | [] => if beyond w after then .ub else .num 0
  | p :: r => .num (areaLoop p 0 r).1

/-- `average` (measure_average.cc:62-73) -/
def average (w : List (Pt F)) (after before : F) : Res F :=
  match window w after before with
  | [] => if beyond w after then .ub else .nan
  | p :: r =>
    let q := areaLoop p 0 r
    if q.2.1 - p.1 = 0 then .nan else .num (q.1 / (q.2.1 - p.1))

/-- the loop of measure_rms.cc:68-72 -/
def squareLoop : Pt F → F → List (Pt F) → F × Pt F
  | lower, area, [] => (area, lower)
  | lower, area, i :: r => squareLoop i (area + 1 / 2 * (lower.2 * lower.2 + i.2 * i.2) * (i.1 - lower.1)) r

/-- the square of `rms` (measure_rms.cc:62-73) -/
def rmsSquare (w : List (Pt F)) (after before : F) : Res F :=
  match window w after before with
  | [] => if beyond w after then .ub else .nan
  | p :: r =>
    let q := squareLoop p 0 r
    if q.2.1 - p.1 = 0 then .nan else .num (q.1 / (q.2.1 - p.1))

/-- body of the loop of `max` (measure_max.cc:72-79); state: time, m -/
def maxStep (last : Bool) (s : F × F) (p : Pt F) : F × F :=
  if s.2 < p.2 ∨ (last = true ∧ p.2 = s.2) then (p.1, p.2) else s

/-- `max` (measure_max.cc:62-80): time and value -/
def max (big : F) (last : Bool) (w : List (Pt F)) (after before : F) : F × F :=
  (window w after before).foldl (maxStep last) (if last then -big else big, -big)

/-- body of the loop of `min` (measure_min.cc:72-79) -/
def minStep (last : Bool) (s : F × F) (p : Pt F) : F × F :=
  if p.2 < s.2 ∨ (last = true ∧ p.2 = s.2) then (p.1, p.2) else s

/-- `min` (measure_min.cc:62-80) -/
def min (big : F) (last : Bool) (w : List (Pt F)) (after before : F) : F × F :=
  (window w after before).foldl (minStep last) (if last then -big else big, big)

/-! ### cross -/

inductive Stat where
  | waiting | ready | done
deriving DecidableEq, Repr

/-- `stat`, `lower`, `x_time` -/
structure CrossSt (F : Type _) where
  stat : Stat
  lower : Pt F
  x : F

/-- the position on the line from `a` to `b` (measure_cross.cc:93-94); `slope * slope` is 1 -/
def crossTime (c : F) (a b : Pt F) : F := a.1 + (c - a.2) / (b.2 - a.2) * (b.1 - a.1)

/-- body of the loop of `cross` (measure_cross.cc:78-104); in state `done` the loop has ended.  `slope` is 1 or -1. -/
def crossStep (slope c : F) (last : Bool) (s : CrossSt F) (p : Pt F) : CrossSt F :=
  match s.stat with
  | .waiting => if p.2 * slope < c * slope then { s with stat := .ready, lower := p } else s
  | .ready =>
    if c * slope < p.2 * slope then
      { s with stat := if last then .waiting else .done, x := crossTime (c * slope * slope) s.lower p }
    else { s with lower := p }
  | .done => s

/-- `cross` (measure_cross.cc:66-105) -/
def cross (big slope c : F) (last : Bool) (w : List (Pt F)) (after before : F) : F :=
  ((window w after before).foldl (crossStep slope c last) ⟨.waiting, (0, 0), if last then -big else big⟩).x

/-! ### slew rate -/

inductive SlewStat where
  | waiting | ready | inRange | done
deriving DecidableEq, Repr

structure SlewSt (F : Type _) where
  stat : SlewStat
  lower : Pt F
  try_ : F
  start : F
  stop : F

/-- `in_order` (include/l_compar.h:28-39) -/
def inOrder (a b c : F) : Bool := decide ((a ≤ b ∧ b ≤ c) ∨ (c ≤ b ∧ b ≤ a))

/-- body of the loop of `slewrate` (measure_slewrate.cc:84-131) -/
def slewStep (a b : F) (last : Bool) (s : SlewSt F) (p : Pt F) : SlewSt F :=
  match s.stat with
  | .waiting => if inOrder p.2 a b then { s with stat := .ready, lower := p } else { s with lower := p }
  | .ready =>
    if inOrder p.2 a b then { s with lower := p }
    else if inOrder a p.2 b then { s with stat := .inRange, try_ := crossTime a s.lower p, lower := p }
    else if inOrder a b p.2 then { s with stat := .done, start := crossTime a s.lower p, stop := crossTime b s.lower p, lower := p }
    else { s with lower := p }
  | .inRange =>
    if inOrder p.2 a b then { s with stat := .ready, lower := p }
    else if inOrder a p.2 b then { s with lower := p }
    else if inOrder a b p.2 then
      { s with stat := if last then .waiting else .done, start := s.try_, stop := crossTime b s.lower p, lower := p }
    else { s with lower := p }
  | .done => s

/-- `slewrate` (measure_slewrate.cc:69-146): start and stop time; the printed value is `(b - a)/(stop - start)`, or `BIGBIG` if
`stop` is -/
def slew (big a b : F) (last : Bool) (w : List (Pt F)) (after before : F) : F × F :=
  let s := (window w after before).foldl (slewStep a b last) ⟨.waiting, (0, 0), big, big, big⟩
  (s.start, s.stop)

end Gnucap.Measure
