import Mathlib.Algebra.Order.Field.Basic
import Mathlib.Algebra.BigOperators.Group.Finset.Basic
import Mathlib.Algebra.BigOperators.Fin

/-!
# Timers (C107)

Models `TIMER` (l_timer.cc), the timers of `STATUS` (u_status.h) and the code that starts and stops them: `CMD::cmdproc` (c__cmd.cc), `getmerge`
(lang_spice.cc), the simulation commands (s__init.cc, s_ac.cc, s_fo.cc, s_tr.cc, s_dc.cc) and the phases of a simulation.
An outcome `none` is a failed `assert`; compiled without them (NDEBUG) the timer is stopped and started instead.
The clock is any sequence of readings.  Simplified: exact arithmetic.  What a command does besides is
only: which phases it runs, which files it reads, and whether it throws.  Left out: `aux1..3` (never started), `build`, `sweep`.
-/
namespace Gnucap.Timer

variable {F : Type _} [Field F] [LinearOrder F]

/-- l_timer.h:33-37 -/
structure T (F : Type _) where
  ref : F
  last : F
  total : F
  running : Bool

/-- `fullreset` (l_timer.cc:54-58) -/
def T.new : T F := ⟨0, 0, 0, false⟩

/-- `reset` (l_timer.cc:60-66) -/
def T.reset (x : T F) : T F := ⟨0, 0, x.total, false⟩

/-- commands that simulate -/
inductive Kind
  | op | dc | tran | four | ac
  deriving DecidableEq

/-- the timers (u_status.h:36-57), the nine that `compute_overhead` subtracts as `part`; `check` is the one of `cmdproc` (c__cmd.cc:38) -/
inductive Tm
  | get
  | kind (k : Kind)
  | setUp
  | order
  | part (i : Fin 9)
  | total
  | check
  deriving DecidableEq

/-- the timers, the number of readings of the clock, what `status` shows as overhead (last, total), what `acct` shows -/
structure S (F : Type _) where
  tm : Tm → T F
  n : ℕ
  shown : List (F × F)
  acct : List F

def S.new : S F := ⟨fun _ => T.new, 0, [], []⟩

def S.set (s : S F) (k : Tm) (x : T F) : S F := { s with tm := fun j => if j = k then x else s.tm j }

/-- `reset` -/
def S.reset (s : S F) (k : Tm) : S F := s.set k (s.tm k).reset

/-- `start` (l_timer.cc:68-77), with its `assert` -/
def S.start (clk : ℕ → F) (k : Tm) (s : S F) : Option (S F) :=
  if (s.tm k).running then none
  else some { s.set k { s.tm k with ref := clk s.n, running := true } with n := s.n + 1 }

/-- `stop` (l_timer.cc:79-89) -/
def S.stop (clk : ℕ → F) (k : Tm) (s : S F) : S F :=
  if (s.tm k).running then
    { s.set k ⟨0, (s.tm k).last + (clk s.n - (s.tm k).ref), (s.tm k).total + (clk s.n - (s.tm k).ref), false⟩ with n := s.n + 1 }
  else s

/-- `reset().start()` -/
def S.again (clk : ℕ → F) (k : Tm) (s : S F) : Option (S F) := (s.reset k).start clk k

/-- a phase of a simulation: of a part (s__solve.cc:140-174, 216-283, s__out.cc:57-78, s_tr_swp.cc:237-253, 289-555, 562-600, 607-639,
s_dc.cc:502-505, s_ac.cc:239-251) or of the set up (s_dc.cc:89-106, 467-483); whether it throws -/
structure Ph where
  part : Option (Fin 9)
  throws : Bool

def Ph.tm (p : Ph) : Tm := match p.part with
  | none => .setUp
  | some i => .part i

/-- phases one after another, until one throws -/
def S.phases (clk : ℕ → F) : List Ph → S F → Option (S F)
  | [], s => some s
  | p :: l, s => (s.start clk p.tm).bind fun s => if p.throws then some s else S.phases clk l (s.stop clk p.tm)

/-- a simulation: whether nodes are ordered and whether that throws (u_sim_data.cc:211-224), whether the set up throws, the phases -/
structure Body where
  order : Option Bool
  throws : Bool
  phases : List Ph

/-- all parts are reset (s__init.cc:84-95) -/
def S.resetParts (s : S F) : S F := { s with tm := fun j => match j with
  | .part i => (s.tm (.part i)).reset
  | j => s.tm j }

/-- `reset_timers` (s__init.cc:82-98) -/
def S.resetTimers (clk : ℕ → F) (s : S F) : Option (S F) := (s.resetParts.again clk .setUp).bind (S.again clk .total)

/-- from `setup` to the `catch` (s__init.cc:41-65, s_ac.cc:81-100, s_fo.cc:84-104) -/
def S.body (clk : ℕ → F) (b : Body) (s : S F) : Option (S F) :=
  match b.order with
  | some true => s.again clk .order
  | some false => (s.again clk .order).bind fun s =>
      if b.throws then some (s.stop clk .order) else ((s.stop clk .order).stop clk .setUp).phases clk b.phases
  | none => if b.throws then some s else (s.stop clk .setUp).phases clk b.phases

/-- a simulation command: `op`, `dc`, `tran` (s_dc.cc:160-190, s_tr.cc:39-51, s__init.cc:30-71), `four`, `ac` (s_fo.cc:73-114, s_ac.cc:70-109) -/
def S.sim (clk : ℕ → F) (k : Kind) (b : Body) (s : S F) : Option (S F) :=
  if k = .four ∨ k = .ac then
    ((s.resetTimers clk).bind (S.again clk (.kind k))).bind fun s => (s.body clk b).map fun s => (s.stop clk (.kind k)).stop clk .total
  else
    ((s.again clk (.kind k)).bind (S.resetTimers clk)).bind fun s => (s.body clk b).map fun s => (s.stop clk .total).stop clk (.kind k)

/-- what is thrown: that a file could not be opened (ap_construct.cc:62, 80), or any other -/
inductive Ex
  | file
  | other
  deriving DecidableEq

mutual
/-- a command: a simulation; a file of commands, by `get` and its like (lang_spice.cc:881-936) or by `include` (c_file.cc:42-88), which may throw
after some of them; `status` (c_status.cc:38-78); any other that starts no timer, which may throw -/
inductive Cmd
  | sim (k : Kind) (b : Body)
  | get (l : Cmds) (throws : Option Ex)
  | incl (l : Cmds) (throws : Option Ex)
  | status
  | other (throws : Option Ex)
inductive Cmds
  | nil
  | cons (c : Cmd) (l : Cmds)
end

/-- `compute_overhead` (u_status.h:61-64), `operator-` (l_timer.cc:119-128) -/
def S.overhead (s : S F) : F × F :=
  ((s.tm .total).last - ∑ i, (s.tm (.part i)).last, (s.tm .total).total - ∑ i, (s.tm (.part i)).total)

/-- before a command (c__cmd.cc:35-43) -/
def S.before (clk : ℕ → F) (s : S F) : Option (S F) := ((s.stop clk .get).stop clk .check).again clk .check

/-- after a command (c__cmd.cc:95-105), `check` (l_timer.cc:91-101) -/
def S.after (clk : ℕ → F) (acct was : Bool) (s : S F) : Option (S F) :=
  (if acct then
    if (s.tm .check).running then
      ((s.stop clk .check).start clk .check).map fun s => { s with acct := s.acct ++ [(s.tm .check).last] }
    else some { s with acct := s.acct ++ [(s.tm .check).last] }
  else some s).bind fun s => if was then s.start clk .get else some s

/-- `include` catches that a file could not be opened, its own or one within (c_file.cc:71-84) -/
def caught : Option Ex → Option Ex
  | some .file => none
  | e => e

mutual
/-- a command itself: the state, and what it threw -/
def S.doIt (clk : ℕ → F) (acct : Bool) (s : S F) : Cmd → Option (S F × Option Ex)
  | .sim k b => (s.sim clk k b).map fun s => (s, none)
  | .get l throws => (s.again clk .get).bind fun s => (S.doAll clk acct s l).map fun r =>
      match r.2 <|> throws with
      | some e => (r.1, some e)
      | none => (r.1.stop clk .get, none)
  | .incl l throws => (S.doAll clk acct s l).map fun r => (r.1, caught (r.2 <|> throws))
  | .status => some ({ s with shown := s.shown ++ [s.overhead] }, none)
  | .other throws => some (s, throws)
/-- the commands of a file, each by `cmdproc` (c__cmd.cc:33-106), until one throws -/
def S.doAll (clk : ℕ → F) (acct : Bool) (s : S F) : Cmds → Option (S F × Option Ex)
  | .nil => some (s, none)
  | .cons c l => (s.before clk).bind fun s1 => (S.doIt clk acct s1 c).bind fun r =>
      match r.2 with
      | some e => some (r.1, some e)
      | none => (r.1.after clk acct (s.tm .get).running).bind fun s => S.doAll clk acct s l
end

/-- one command from the user; what it throws is caught (main.cc:291-303) -/
def S.top (clk : ℕ → F) (acct : Bool) (s : S F) (c : Cmd) : Option (S F) := (S.doAll clk acct s (.cons c .nil)).map Prod.fst

/-- a session -/
def S.run (clk : ℕ → F) (acct : Bool) (s : S F) : List Cmd → Option (S F)
  | [] => some s
  | c :: l => (s.top clk acct c).bind fun s => S.run clk acct s l

end Gnucap.Timer
