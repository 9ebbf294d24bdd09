import Mathlib.Algebra.Order.Field.Rat

/-!
# Switches (`apps/d_switch.cc`): state, conductance and announced switching time

One switch, seen by the calls the simulator makes on it.  The controlling value (voltage difference or
current) is an argument of the calls that read it.  `double` is ℚ.  Of the inherited members only
`_time[0]`, `_time[1]`, `_y[0].f1` (the resistance) and `_m0.c1` (the conductance) are kept; `q_eval`
and `q_load` are two flags.
-/
namespace Gnucap.Switch

/-- `enum state_t` (`apps/d_switch.cc:37`) -/
inductive State
  | unknown
  | on
  | off
deriving DecidableEq, Repr

/-- the parameters of the model that are used in simulation (`apps/d_switch.cc:174-179`) and the initial
state of the common part (`apps/d_switch.cc:56`) -/
structure Model where
  von : ℚ
  voff : ℚ
  ron : ℚ
  roff : ℚ
  ic : State
  never : ℚ       -- the constant NEVER

/-- `precalc_first` (`apps/d_switch.cc:271-284`): the thresholds that are not given come from `vt`, `vh` -/
def thresholds (vt vh : ℚ) (von voff : Option ℚ) : ℚ × ℚ := (von.getD (vt + vh), voff.getD (vt - vh))

/-- the members (`apps/d_switch.cc:94-97`, and those of the base classes) -/
structure Sw where
  in0 : ℚ
  in1 : ℚ
  st0 : State
  st1 : State
  t0 : ℚ
  t1 : ℚ
  r : ℚ          -- _y[0].f1
  g : ℚ          -- _m0.c1
  event : ℚ      -- _time_by._event
  conv : Bool
  evalq : Bool   -- q_eval has been called
  loadq : Bool   -- q_load has been called
deriving DecidableEq

/-- `(state == _ON) ? ron : roff`, "unknown is off" -/
def Model.res (m : Model) : State → ℚ
  | .on => m.ron
  | _ => m.roff

/-- The constructor (`apps/d_switch.cc:379-385`) -/
def init (m : Model) : Sw := ⟨0, 0, .unknown, .unknown, 0, 0, 0, 0, m.never, true, false, false⟩

/-- `precalc_last` with no operating point yet (`apps/d_switch.cc:411-434`) -/
def precalc (m : Model) (s : Sw) : Sw :=
  { s with r := m.res m.ic, g := 1 / m.res m.ic, st0 := m.ic, st1 := m.ic }

/-- `tr_begin` (`apps/d_switch.cc:436-454`, `lib/e_elemnt.cc:177-189`) -/
def trBegin (m : Model) (s : Sw) : Sw :=
  { s with t0 := 0, t1 := 0, r := m.res m.ic, g := 1 / m.res m.ic, st0 := m.ic, st1 := m.ic, conv := true }

/-- `dc_advance` (`apps/d_switch.cc:456-460`) -/
def dcAdvance (s : Sw) : Sw := { s with st1 := s.st0 }

/-- The state `tr_advance` chooses (`apps/d_switch.cc:474-480`); `old` is `_state[1]`. -/
def nextTr (m : Model) (x : ℚ) (old : State) : State :=
  if m.von ≤ x then .on else if x ≤ m.voff then .off else old

/-- `tr_advance` (`apps/d_switch.cc:462-495`, `lib/e_elemnt.cc:246-258`); `t` is `_sim->_time0` -/
def trAdvance (m : Model) (t : ℚ) (s : Sw) : Sw :=
  let s := { s with t1 := s.t0, t0 := t, st1 := s.st0, in1 := s.in0 }
  let s := { s with st0 := nextTr m s.in1 s.st1 }
  let s := if s.st1 ≠ s.st0 then
      { s with r := m.res s.st0, g := 1 / m.res s.st0, evalq := true }
    else s
  { s with conv := true }

/-- `tr_regress` (`apps/d_switch.cc:497-511`, `lib/e_elemnt.cc:260-271`) -/
def trRegress (t : ℚ) (s : Sw) : Sw := { s with t0 := t, conv := true }

/-- The state `do_tr` chooses in a static analysis (`apps/d_switch.cc:525-532`). -/
def nextDc (m : Model) (x : ℚ) (old : State) : State :=
  if m.von < x then .on else if x < m.voff then .off else old

/-- `do_tr` of a static analysis (`apps/d_switch.cc:520-544`); `x` is the controlling value -/
def doStatic (m : Model) (x : ℚ) (s : Sw) : Sw :=
  let new := nextDc m x s.st1
  if new ≠ s.st0 then
    { s with r := m.res new, st0 := new, g := 1 / m.res new, loadq := true, conv := false, evalq := false }
  else { s with conv := true, evalq := false }

/-- `do_tr` of a dynamic analysis (`apps/d_switch.cc:545-556`) -/
def doDynamic (s : Sw) : Sw :=
  if s.st0 ≠ s.st1 then { s with loadq := true, evalq := false } else { s with evalq := false }

/-- `_time_by.min_event(E)` (`include/u_time_pair.h:54-60`) -/
def minEvent (e : ℚ) (s : Sw) : Sw := if e < s.event then { s with event := e } else s

/-- `tr_review` (`apps/d_switch.cc:565-601`); `x` is the controlling value -/
def trReview (m : Model) (x : ℚ) (s : Sw) : Sw :=
  let s := { s with event := m.never, in0 := x }
  let oldDt := s.t0 - s.t1
  let oldDv := s.in0 - s.in1
  if s.st0 ≠ .on ∧ 0 < oldDv then minEvent (s.t1 + oldDt * (m.von - s.in1) / oldDv) s
  else if s.st0 ≠ .off ∧ oldDv < 0 then minEvent (s.t1 + oldDt * (m.voff - s.in1) / oldDv) s
  else s

/-- The calls the simulator makes, with what they read. -/
inductive Op
  | begin                 -- tr_begin
  | dcAdvance
  | advance (t : ℚ)
  | regress (t : ℚ)
  | static (x : ℚ)        -- do_tr, static
  | dynamic               -- do_tr, otherwise
  | review (x : ℚ)

/-- one call (dispatch on the kind of call; each case is the function named there) -/
def step (m : Model) (s : Sw) : Op → Sw
  | .begin => trBegin m s
  | .dcAdvance => dcAdvance s
  | .advance t => trAdvance m t s
  | .regress t => trRegress t s
  | .static x => doStatic m x s
  | .dynamic => doDynamic s
  | .review x => trReview m x s

/-- a sequence of calls -/
def run (m : Model) (ops : List Op) (s : Sw) : Sw := ops.foldl (step m) s

end Gnucap.Switch
