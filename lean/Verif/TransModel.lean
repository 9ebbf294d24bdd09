import Mathlib.Algebra.Order.Field.Rat
import Mathlib.Data.Rat.Floor

/-!
# Transient step control (model)

`double` is modelled by ℚ; a `TIME_t` (a whole number of ticks kept in a double, s_tr_swp.cc:54-86) by ℤ.  The conversion of
a tick count to `int64_t` (s_tr_swp.cc:83) is taken to be in range.  `assert`s are not executed; integer division by zero is
the outcome `none`.  `OPT::quitconvfail` is off (its default, u_opt1.cc:101).
-/
namespace Gnucap.Trans

/-- `std::round`: to nearest, halves away from zero -/
def rnd (x : ℚ) : ℤ := if 0 ≤ x then ⌊x + 1/2⌋ else ⌈x - 1/2⌉

/-- `TIME_t(double)` (s_tr_swp.cc:61) -/
def tick (dtmin x : ℚ) : ℤ := rnd (x / dtmin)

/-- `TIME_t::to_double` (s_tr_swp.cc:82) -/
def toDouble (dtmin : ℚ) (n : ℤ) : ℚ := n * dtmin

/-! ## Event queue: `std::priority_queue<EVENT, std::deque<EVENT>, std::greater<double>>` (u_sim_data.h:93), kept as an ascending list -/

/-- `push` -/
def push (t : ℚ) : List ℚ → List ℚ
  | [] => [t]
  | x :: q => if t ≤ x then t :: x :: q else x :: push t q

/-- the time `new_event` files an event under (u_sim_data.h:141-149) -/
def eventTime (dtmin time0 t : ℚ) : ℚ :=
  if dtmin ≤ 0 then t
  else if t ≤ time0 + dtmin then ⌈t / dtmin⌉ * dtmin
  else rnd (t / dtmin) * dtmin

/-- `SIM_DATA::new_event` (u_sim_data.h:139-152) -/
def newEvent (dtmin time0 t : ℚ) (q : List ℚ) : List ℚ × ℚ := (push (eventTime dtmin time0 t) q, eventTime dtmin time0 t)

/-- What the command and options fix for a run. -/
structure Cfg where
  dtmin : ℚ
  dtmax : ℚ
  tstart : ℚ
  tstop : ℚ
  tstrobe : ℚ
  shrink : ℚ      -- OPT::trstepshrink
  hold : ℚ        -- OPT::trstephold
  grow : ℚ        -- OPT::trstepgrow

/-- Members of TRANSIENT and SIM_DATA that the step control uses, plus three logs that nothing reads. -/
structure St where
  time1 : ℚ
  time0 : ℚ
  user : ℚ              -- _time_by_user_request
  amb : ℚ               -- _time_by_ambiguous_event
  err : ℚ               -- _time_by_error_estimate
  eq : List ℚ           -- _sim->_eq
  accepted : Bool
  converged : Bool
  exceeds : Bool        -- exceeds_iteration_limit(TRLOW) after the last solve
  control : ℕ           -- ::status.control
  accepts : List ℚ      -- log: accepted times, newest first
  strobes : List ℚ      -- log: accepted times printed because the user asked for them, newest first
  filed : List ℚ        -- log: events filed
deriving DecidableEq

/-- candidate for the next step: `newtime`, `new_dt`, `new_control` -/
structure Cand where
  newtime : ℤ
  dt : ℤ
  control : ℕ
deriving DecidableEq

/-- `if (TIME_t(x) < newtime) {newtime = ..; new_dt = newtime - reftime; new_control = ..}` (s_tr_swp.cc:316-322, 329-335, 341-347) -/
def tryTime (ref : ℤ) (x : ℤ) (ctl : ℕ) (c : Cand) : Cand := if x < c.newtime then ⟨x, x - ref, ctl⟩ else c

/-- `if (d < new_dt) {new_dt = d; newtime = base + new_dt; new_control = ..}` (s_tr_swp.cc:350-356, 365-370, 376-382, 388-395, 400-406) -/
def tryDt (base : ℤ) (d : ℤ) (ctl : ℕ) (c : Cand) : Cand := if d < c.dt then ⟨base + d, d, ctl⟩ else c

/-- s_tr_swp.cc:304-324: user request, then event queue; gives also `fixed_time` as its newtime -/
def candFixed (c : Cfg) (s : St) (ref : ℤ) : Cand :=
  let a : Cand := ⟨tick c.dtmin s.user, tick c.dtmin s.user - ref, 1⟩
  match s.eq with
  | [] => a
  | e :: _ => tryTime ref (tick c.dtmin e) 2 a

/-- s_tr_swp.cc:326-337: ambiguous event (whose newtime is `almost_fixed_time`) -/
def candAlmost (c : Cfg) (s : St) (ref : ℤ) : Cand := tryTime ref (tick c.dtmin s.amb) 7 (candFixed c s ref)

/-- s_tr_swp.cc:340-356: error estimate, dtmax -/
def candSkip (c : Cfg) (s : St) (ref : ℤ) : Cand :=
  tryDt ref (tick c.dtmin c.dtmax) 3 (tryTime ref (tick c.dtmin s.err) 6 (candAlmost c s ref))

/-- s_tr_swp.cc:358-410: initial guess, convergence failure, hold, growth limit -/
def candLimit (c : Cfg) (s : St) (ref time0 old : ℤ) (a : Cand) : Cand :=
  if old = 0 then tryDt time0 (tick c.dtmin (max (c.dtmax / 100) c.dtmin)) 9 a
  else if 0 < old then
    let a1 := if s.converged then a else tryDt ref (rnd (old / c.shrink)) 4 a
    let a2 := if s.exceeds then tryDt ref (rnd (old * c.hold)) 5 a1 else a1
    tryDt ref (rnd (old * c.grow)) 8 a2
  else a

/-- s_tr_swp.cc:412-496: move the step to get equal steps -/
def candSmooth (c : Cfg) (s : St) (ref time0 old : ℤ) (fixed almost : ℤ) (a : Cand) : Option Cand :=
  if almost < a.newtime then some a
  else if a.newtime = tick c.dtmin s.user then some a
  else if a.newtime = fixed then some a
  else if a.newtime = almost then some a
  else if a.newtime < time0 then some a
  else if (rnd (old * (8/10)) ≤ a.dt ∧ a.dt ≤ rnd (old * (15/10))) ∧ ref + old ≤ almost then
    let nt := ref + old
    some ⟨nt, old,
      if almost < nt then a.control
      else if nt = tick c.dtmin s.user then 1
      else if nt = fixed then 2
      else if nt = almost then 7
      else a.control⟩
  else if a.dt = 0 then none                       -- target_dt.ticks() / new_dt.ticks()
  else
    let target := fixed - ref
    let steps := target.tdiv a.dt
    let dt' :=
      if a.dt * steps = target then a.dt
      else if (⌊(target : ℚ) / ((steps + 1 : ℤ) : ℚ)⌋) * (steps + 1) = target then ⌊(target : ℚ) / ((steps + 1 : ℤ) : ℚ)⌋
      else if (⌊(target : ℚ) / ((steps + 2 : ℤ) : ℚ)⌋) * (steps + 2) = target then ⌊(target : ℚ) / ((steps + 2 : ℤ) : ℚ)⌋
      else ⌊(target : ℚ) / ((steps + 1 : ℤ) : ℚ)⌋ + tick c.dtmin c.dtmin
    some ⟨ref + dt', dt', a.control⟩

/-- s_tr_swp.cc:498-512: trap time step too small (after `set_step_cause(new_control)`) -/
def trapSmall (c : Cfg) (ref : ℤ) (a : Cand) : Cand :=
  if a.dt < tick c.dtmin c.dtmin then ⟨ref + tick c.dtmin c.dtmin, tick c.dtmin c.dtmin, a.control + 30⟩ else a

/-- s_tr_swp.cc:514-531: trap exact duplicate time -/
def trapZero (c : Cfg) (time0 : ℤ) (a : Cand) : Cand :=
  if a.newtime = time0 then ⟨time0 + tick c.dtmin c.dtmin, tick c.dtmin c.dtmin, a.control + 20⟩ else a

/-- `TRANSIENT::next` (s_tr_swp.cc:287-558); none: division by zero -/
def next (c : Cfg) (s : St) : Option (St × Bool) :=
  let time1 := tick c.dtmin s.time1
  let time0 := tick c.dtmin s.time0
  let ref := if s.accepted then time0 else time1
  let old := time0 - time1
  let fixed := (candFixed c s ref).newtime
  let almost := (candAlmost c s ref).newtime
  match candSmooth c s ref time0 old fixed almost (candLimit c s ref time0 old (candSkip c s ref)) with
  | none => none
  | some a =>
    let b := trapZero c time0 (trapSmall c ref a)
    let control := if b.newtime < time0 then b.control + 10 else b.control
    some ({ s with time1 := toDouble c.dtmin ref, time0 := toDouble c.dtmin b.newtime, control := control },
      decide (b.newtime ≤ tick c.dtmin (c.tstop + c.dtmin)))

/-- `TRANSIENT::review` (s_tr_swp.cc:560-603); `ev`, `er` is what the circuit's `tr_review` returned -/
def review (c : Cfg) (ev er : ℚ) (s : St) : St × Bool :=
  let mintime := s.time1 + 2 * c.dtmin
  let a0 := if ev < mintime then mintime else ev
  let amb := if s.time0 - 2 * c.dtmin ≤ a0 ∧ a0 ≤ s.time0 + 2 * c.dtmin then s.time0 + 2 * c.dtmin else a0
  let e0 := if er < mintime then mintime else er
  let err := if s.time0 - 11/10 * c.dtmin ≤ e0 ∧ e0 ≤ s.time0 + 11/10 * c.dtmin then s.time0 + 11/10 * c.dtmin else e0
  ({ s with amb := amb, err := err }, decide (s.time0 < err) && decide (s.time0 < amb))

/-- events requested by the devices, in order -/
def fileAll (c : Cfg) (ts : List ℚ) (s : St) : St :=
  ts.foldl (fun s t => { s with eq := (newEvent c.dtmin s.time0 t s.eq).1, filed := (newEvent c.dtmin s.time0 t s.eq).2 :: s.filed }) s

/-- the popping loop of `TRANSIENT::accept` (s_tr_swp.cc:613-617) -/
def popPast (dtmin time0 : ℚ) : List ℚ → List ℚ
  | [] => []
  | e :: q => if tick dtmin e ≤ tick dtmin time0 then popPast dtmin time0 q else e :: q

/-- `TRANSIENT::accept` (s_tr_swp.cc:605-632): pops, then the devices' `tr_accept`, which may file events -/
def accept (c : Cfg) (evs : List ℚ) (s : St) : St :=
  fileAll c evs { s with eq := popPast c.dtmin s.time0 s.eq, accepts := s.time0 :: s.accepts }

/-- What one time step meets: outcome of `solve`, whether it took more than TRLOW iterations, what the devices ask for in
review, and the events they file while being evaluated and while accepting. -/
structure Env where
  conv : Bool
  exceeds : Bool
  ev : ℚ
  er : ℚ
  evalEvents : List ℚ
  acceptEvents : List ℚ

/-- the body of the loop in `TRANSIENT::sweep` (s_tr_swp.cc:145-166) -/
def body (c : Cfg) (e : Env) (s : St) : St :=
  let s1 := { fileAll c e.evalEvents s with converged := e.conv, exceeds := e.exceeds }
  if e.conv then
    let r := review c e.ev e.er s1
    if r.2 then
      let s2 := accept c e.acceptEvents { r.1 with accepted := true }
      if s2.control = 1 then { s2 with user := s2.user + c.tstrobe, strobes := s2.time0 :: s2.strobes } else s2
    else { r.1 with accepted := false }
  else { s1 with accepted := false }

/-- `TRANSIENT::first` (s_tr_swp.cc:232-254) and the rest of `sweep` before the loop (s_tr_swp.cc:113-143), starting at `t0`
(`_time1 = _sim->_time0`, s_tr_set.cc:139-145) with the event queue `q`. -/
def start (c : Cfg) (t0 : ℚ) (q : List ℚ) (e : Env) : St :=
  let s0 : St := { time1 := t0, time0 := t0,
                   user := if t0 < c.tstart then c.tstart else t0 + c.tstrobe,
                   amb := 0, err := 0, eq := q, accepted := true, converged := e.conv, exceeds := e.exceeds,
                   control := if t0 < c.tstart then 9 else 1, accepts := [], strobes := [], filed := q }
  let s1 := (review c e.ev e.er (fileAll c e.evalEvents s0)).1
  let s2 := accept c e.acceptEvents s1
  if t0 = c.tstart then { s2 with strobes := [t0] } else s2

/-- How far a sweep got. -/
inductive Res where
  | running (s : St)
  | ended (s : St)       -- `next` returned false
  | crashed              -- division by zero in `next`

/-- the loop `while (next()) {...}` (s_tr_swp.cc:145-190), one `Env` per time step -/
def run (c : Cfg) : List Env → St → Res
  | [], s => .running s
  | e :: es, s =>
    match next c s with
    | none => .crashed
    | some (s', true) => run c es (body c e s')
    | some (s', false) => .ended s'

end Gnucap.Trans
