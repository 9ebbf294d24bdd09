import Mathlib.Data.List.Basic
import Mathlib.Data.List.Nodup

/-!
# The dc command from one command to the next (C108)

Models what the one object of the `dc` command keeps between commands and does to the circuit: `DC::setup` with everything it may throw,
`DCOP::sweep` and `DCOP::finish` (s_dc.cc), called by `SIM::command_base` (s__init.cc:30-71), and changes by the user between commands.
An outcome `none` is undefined behaviour or a failed `assert`.  Simplified: a component is its value and common together; a parameter is its text; what is
swept is only: which parameters are written.  Left out: `_ctrl` and `_sweepval` (SweepModel), options, solving.
-/
namespace Gnucap.DcLife

variable {C V : Type _}

/-- components by address (`none`: deleted), parameters by name (`none`: without value) -/
structure World (C V : Type _) where
  elt : ℕ → Option C
  par : ℕ → Option V

def World.setElt (w : World C V) (e : ℕ) (c : Option C) : World C V := { w with elt := fun k => if k = e then c else w.elt k }

def World.setPar (w : World C V) (p : ℕ) (v : V) : World C V := { w with par := fun k => if k = p then some v else w.par k }

/-- `_n_sweeps`, `_zap`, `_param_name` with `_param_zap`, `_stash` (s_dc.cc:117-129) -/
structure Dc (C V : Type _) where
  n : ℕ
  zap : ℕ → Option ℕ
  pn : ℕ → Option (ℕ × V)
  st : ℕ → Option (ℕ × C)

/-- `DCOP::DCOP` (s_dc.cc:193-216) -/
def Dc.new : Dc C V := ⟨1, fun _ => none, fun _ => none, fun _ => none⟩

/-- put a value at a place -/
def put {A : Type _} (f : ℕ → A) (i : ℕ) (a : A) (k : ℕ) : A := if k = i then a else f k

/-- what is named at a level: a component, a part that is no `ELEMENT`, a number, a parameter, anything else (s_dc.cc:291-318) -/
inductive Arg
  | elt (e : ℕ)
  | device
  | num
  | par (p : ℕ)
  | other

/-- a level, and whether an expression behind it makes parsing throw (s_dc.cc:320-331) -/
structure Lvl where
  arg : Arg
  bad : Bool

/-- what is to be swept at a level (s_dc.cc:291-318); `none`: throws -/
def Dc.choose (w : World C V) (i : ℕ) (d : Dc C V) : Arg → Option (Dc C V)
  | .elt e => if (w.elt e).isSome then some { d with zap := put d.zap i (some e), pn := put d.pn i none } else some d
  | .device => none
  | .num => some { d with zap := put d.zap i none }
  | .par p => match w.par p with
    | some v => some { d with pn := put d.pn i (some (p, v)) }
    | none => some d
  | .other => some d

/-- the loop over the levels of a line (s_dc.cc:290-332); `true`: it threw -/
def Dc.parse (w : World C V) : List Lvl → ℕ → Dc C V → Dc C V × Bool
  | [], i, d => ({ d with n := i }, false)
  | l :: ls, i, d => match d.choose w i l.arg with
    | none => ({ d with n := i }, true)
    | some d => if l.bad then ({ d with n := i }, true) else Dc.parse w ls (i + 1) d

/-- a line: its levels, of which four are read (DCNEST), the level at which evaluating an argument throws, the last value at each level swept -/
structure Line (V : Type _) where
  levels : List Lvl
  evalBad : Option ℕ
  last : ℕ → V

/-- the loop that takes control (s_dc.cc:341-357, u_cardst.h:58-66); `true`: it threw -/
def Dc.take (ctrl : ℕ → C) (bad : Option ℕ) : List ℕ → Dc C V → World C V → Option (Dc C V × World C V × Bool)
  | [], d, w => some (d, w, false)
  | i :: l, d, w =>
    if bad = some i then some (d, w, true)
    else match d.zap i with
      | none => Dc.take ctrl bad l d w
      | some e => match w.elt e with
        | none => none
        | some c => Dc.take ctrl bad l { d with st := put d.st i (some (e, c)) } (w.setElt e (some (ctrl i)))

/-- sweeping writes the parameters (s_dc.cc:89-106) -/
def Dc.sweep (last : ℕ → V) (d : Dc C V) : List ℕ → World C V → World C V
  | [], w => w
  | i :: l, w => match d.pn i with
    | none => d.sweep last l w
    | some (p, _) => d.sweep last l (w.setPar p (last i))

/-- `finish` (s_dc.cc:218-238), `restore` (u_cardst.h:40-44) -/
def Dc.finish : List ℕ → Dc C V → World C V → Option (Dc C V × World C V)
  | [], d, w => some (d, w)
  | i :: l, d, w => match d.zap i with
    | some e => match d.st i with
      | none => none
      | some (e', c) =>
        if (w.elt e').isSome ∧ (w.elt e).isSome then Dc.finish l { d with zap := put d.zap i none } (w.setElt e' (some c)) else none
    | none => match d.pn i with
      | some (p, v) => Dc.finish l d (w.setPar p v)
      | none => Dc.finish l d w

/-- a `dc` command: `setup` (s_dc.cc:279-359), the sweep unless it threw, `finish` (s__init.cc:41-66) -/
def Dc.cmd (ctrl : ℕ → C) (x : Line V) (d : Dc C V) (w : World C V) : Option (Dc C V × World C V) :=
  let r := if x.levels = [] then (d, false) else Dc.parse w (x.levels.take 4) 0 d
  if r.2 then Dc.finish (List.range r.1.n) r.1 w
  else if r.1.n = 0 then none
  else match Dc.take ctrl x.evalBad (List.range r.1.n) r.1 w with
    | none => none
    | some (d, w, threw) => Dc.finish (List.range d.n) d (if threw then w else d.sweep x.last (List.range d.n) w)

/-- the user: a `dc` command, a component changed, deleted, a parameter set -/
inductive Step (C V : Type _)
  | dc (x : Line V)
  | elt (e : ℕ) (c : C)
  | del (e : ℕ)
  | par (p : ℕ) (v : V)

/-- one step; only a component that is there is changed -/
def step (ctrl : ℕ → C) (s : Dc C V × World C V) : Step C V → Option (Dc C V × World C V)
  | .dc x => s.1.cmd ctrl x s.2
  | .elt e c => some (s.1, if (s.2.elt e).isSome then s.2.setElt e (some c) else s.2)
  | .del e => some (s.1, s.2.setElt e none)
  | .par p v => some (s.1, s.2.setPar p v)

/-- a session -/
def run (ctrl : ℕ → C) (s : Dc C V × World C V) : List (Step C V) → Option (Dc C V × World C V)
  | [] => some s
  | x :: l => (step ctrl s x).bind fun s => run ctrl s l

end Gnucap.DcLife
