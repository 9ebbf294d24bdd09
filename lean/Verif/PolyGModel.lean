import Mathlib.Algebra.Order.Field.Basic
import Mathlib.Algebra.Order.Ring.Abs
import Mathlib.Algebra.BigOperators.Group.Finset.Basic
import Mathlib.Order.Interval.Finset.Nat

/-!
# The element with many ports (C106)

Models `DEV_CPOLY_G` (d_poly_g.cc), by which transistors load their currents: evaluation, loading with damping, convergence, unloading,
current.  What an element adds to the matrix and the right side is linear in the amounts it loads (MatrixModel, LoadModel): here only
the sum of the amounts loaded since the matrix was cleared is kept, place 0 for the source, place `i` for port `i`.
Simplified: exact arithmetic, `dn_diff` is the difference (what it loses: LoadModel).  Left out: nodes, alternating current.
-/
namespace Gnucap.PolyG
open Finset

variable {F : Type _} [Field F] [LinearOrder F] [IsStrictOrderedRing F]

/-- the number of ports; `_values`, which the owner writes; `_old_values`; `_m0.c0`, `_m0.c1`, `_m1.c0`, `_m1.c1`; `_time` (`none`:
NOT_VALID); the amounts in the matrix (d_poly_g.cc:39-44, e_elemnt.h) -/
structure D (F : Type _) where
  n : ℕ
  val : ℕ → F
  old : ℕ → F
  c0 : F
  c1 : F
  d0 : F
  d1 : F
  time : Option F
  ld : ℕ → F

/-- `set_parameters` for the first time (d_poly_g.cc:229-270): all values 0 -/
def D.new (n : ℕ) : D F := ⟨n, fun _ => 0, fun _ => 0, 0, 0, 0, 0, none, fun _ => 0⟩

/-- `conchk` (e_compon.h:44-48) -/
def conchk (atol rtol o n : F) : Bool := decide (|n - o| ≤ rtol * |n| + atol)

/-- the owner writes new values, then `do_tr` (d_poly_g.cc:159-164) with `do_tr_con_chk_and_q` (146-157): the element, and whether it has
converged -/
def D.doTr (atol rtol t : F) (v : ℕ → F) (x : D F) : D F × Bool :=
  let tm := match x.time with
    | none => false
    | some o => conchk atol rtol o t
  ({ x with val := v, c0 := v 0, c1 := v 1, time := some t },
    tm && (List.range (x.n + 1)).all fun i => conchk atol rtol (x.old i) (v i))

/-- how a pass loads: `is_inc_mode()`, `is_advance_or_first_iteration()`, `_damp`, and the number of devices in parallel -/
structure How (F : Type _) where
  inc : Bool
  first : Bool
  damp : F
  mf : F

/-- `dampdiff` (e_elemnt.h:197-211): the new `*v0` -/
def How.next (h : How F) (v0 v1 : F) : F := if h.first then v0 else v1 + (v0 - v1) * h.damp

/-- `dampdiff`: the amount to load -/
def How.amount (h : How F) (v0 v1 : F) : F :=
  h.mf * (if h.inc then (if h.first then v0 - v1 else (v0 - v1) * h.damp) else h.next v0 v1)

/-- `tr_load` (d_poly_g.cc:191-199) with `tr_load_passive` (e_elemnt.h:322-330), `tr_load_source` (259-279), `tr_load_extended` (368-378) -/
def D.load (h : How F) (x : D F) : D F where
  n := x.n
  val := fun i => if 2 ≤ i ∧ i ≤ x.n then h.next (x.val i) (x.old i) else x.val i
  old := fun i => if i ≤ 1 then x.val i else if i ≤ x.n then h.next (x.val i) (x.old i) else x.old i
  c0 := h.next x.c0 x.d0
  c1 := h.next x.c1 x.d1
  d0 := h.next x.c0 x.d0
  d1 := h.next x.c1 x.d1
  time := x.time
  ld := fun i =>
    if i = 0 then x.ld 0 + h.amount x.c0 x.d0
    else if i = 1 then x.ld 1 + h.amount x.c1 x.d1
    else if i ≤ x.n then x.ld i + h.amount (x.val i) (x.old i)
    else x.ld i

/-- `clear_arrays` (s__solve.cc:204-213) -/
def D.clear (h : How F) (x : D F) : D F := if h.inc then x else { x with ld := fun _ => 0 }

/-- `tr_unload` (d_poly_g.cc:201-207); `mark_inc_mode_bad` leaves the mode of this pass (u_sim_data.h:126-138) -/
def D.unload (h : How F) (x : D F) : D F :=
  { x with val := fun i => if i ≤ x.n then 0 else x.val i, c0 := 0, c1 := 0 }.load h

/-- one pass of `SIM::solve` (s__solve.cc:57-90) as the element sees it: evaluated with these values at this time, or bypassed; loaded,
or not in the queue (always loaded without incremental mode) -/
structure Pass (F : Type _) where
  how : How F
  ev : Option (F × (ℕ → F))
  loaded : Bool

/-- the element after a pass -/
def D.pass (atol rtol : F) (x : D F) (p : Pass F) : D F :=
  let x := x.clear p.how
  let x := match p.ev with
    | none => x
    | some (t, v) => (x.doTr atol rtol t v).1
  if p.loaded || !p.how.inc then x.load p.how else x

/-- many passes -/
def D.run (atol rtol : F) (x : D F) (l : List (Pass F)) : D F := l.foldl (D.pass atol rtol) x

/-- `tr_amps` (d_poly_g.cc:209-216), `u i` the voltage of port `i` -/
def D.amps (x : D F) (u : ℕ → F) : F := x.c0 + ∑ i ∈ Icc 1 x.n, u i * x.val i

end Gnucap.PolyG
