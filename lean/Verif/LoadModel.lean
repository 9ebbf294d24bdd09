import Mathlib.Algebra.Order.Field.Basic
import Mathlib.Algebra.Order.Group.Abs
import Mathlib.Algebra.BigOperators.Group.Finset.Basic
import Verif.MatrixProps

/-!
# Incremental loading and the solver iteration (model)

Models `dn_diff`, `ELEMENT::dampdiff`, the `tr_load_*` family, the tri-state incremental-mode flag and one iteration of
`SIM::solve` (`set_flags`, `clear_arrays`, `evaluate_models`, `load_matrix`, `solve_equations`).

Every call of `dampdiff` in gnucap works on a pair (new value, old value) owned by an element; such a pair together with
the stamp it is loaded through is a `Slot` here.  What the elements compute is an arbitrary input (`vals`).
-/
set_option linter.unusedSectionVars false
namespace Gnucap.Load
open Gnucap.Mat

variable {F : Type _} [Field F]

/-- How a slot reaches the matrix or the right side (e_elemnt.h:213-440); node numbers are internal ones, 0 = ground. -/
inductive Kind where
  | passive (o1 o2 : ℕ)            -- load_symmetric: tr_load_passive, tr_load_shunt
  | active (o1 o2 i1 i2 : ℕ)       -- load_asymmetric: tr_load_active, tr_load_extended
  | couple (o1 o2 : ℕ)             -- tr_load_couple
  | inode (o1 o2 i1 : ℕ)           -- tr_load_inode
  | diag (n : ℕ)                   -- tr_load_diagonal_point
  | point (n1 n2 : ℕ)              -- tr_load_point
  | source (o1 o2 : ℕ)             -- tr_load_source
  | srcPoint (n : ℕ)               -- tr_load_source_point

/-- The load call made with `d` (e_elemnt.h:217-218, 243, 269-276, 308, 331, 351, 375, 395, 415, 430);
returns matrix and right side. -/
def stamp (k : Kind) (d : F) (m : Loaded F) (iv : ℕ → F) : Loaded F × (ℕ → F) :=
  match k with
  | .passive o1 o2 => (loadSymmetric o1 o2 d m, iv)
  | .active o1 o2 i1 i2 => (loadAsymmetric o1 o2 i1 i2 d m, iv)
  | .couple o1 o2 => (loadCouple o1 o2 d m, iv)
  | .inode o1 o2 i1 => (loadCouple o2 i1 d (loadCouple o1 i1 (-d) m), iv)
  | .diag n => (loadDiagonalPoint n d m, iv)
  | .point n1 n2 => (loadPoint n1 n2 d m, iv)
  | .source o1 o2 =>
    let iv := if o2 ≠ 0 then vset iv o2 (iv o2 + d) else iv
    let iv := if o1 ≠ 0 then vset iv o1 (iv o1 - d) else iv
    (m, iv)
  | .srcPoint n => (m, if n ≠ 0 then vset iv n (iv n + d) else iv)

variable [LinearOrder F] [IsStrictOrderedRing F]

/-- `fixzero(z, r)` (l_denoise.h:43-47) -/
def fixzero (tol z r : F) : F := if |z| < |r * tol| then 0 else z

/-- `dn_diff(a, b)` (l_denoise.h:50-55) -/
def dnDiff (tol a b : F) : F := fixzero tol (a - b) a

structure Slot (F : Type _) where
  kind : Kind
  mf : F                 -- mfactor()
  new : F                -- what `v0` points to
  old : F                -- `v1`
  lost : F               -- ghost, not in the code: sum of differences discarded by `dn_diff` since the last full load
  nlost : ℕ              -- ghost: how many such discards

/-- Matrix, right side (`_i`), incremental-mode flag, step iteration counter, factors, slots. -/
inductive Inc where
  | no | yes | bad
  deriving DecidableEq

structure St (F : Type _) where
  inc : Inc := .no
  iter : ℕ := 0                    -- _iter[iSTEP]
  mat : Loaded F
  iv : ℕ → F                       -- _i
  lu : Arr F
  v : ℕ → F                        -- _v0
  slots : ℕ → Slot F
  base : F                         -- ghost: OPT::gmin when the matrix was last cleared

/-- `is_inc_mode` (u_sim_data.h:126): any non-zero value of the tri-state, so also `bad`. -/
def St.isInc (s : St F) : Bool := match s.inc with
  | .no => false
  | .yes => true
  | .bad => true

/-- `mark_inc_mode_bad` (u_sim_data.h:132-138) -/
def markBad : Inc → Inc
  | .yes => .bad
  | .bad => .bad
  | .no => .no

/-- `dampdiff` (e_elemnt.h:197-211): returns the amount to load and the slot with `*v0` updated.
`first` is `is_advance_or_first_iteration()`. -/
def dampdiff (tol damp : F) (inc first : Bool) (s : Slot F) : F × Slot F :=
  let diff := dnDiff tol s.new s.old
  let r := if !first then (diff * damp, s.old + diff * damp) else (diff, s.new)
  (s.mf * (if inc then r.1 else r.2), { s with new := r.2 })

/-- One `tr_load_*` on slot `k` (e_elemnt.h:213-440): `dampdiff`, the guarded load, `old = new`. -/
def loadSlot (tol damp : F) (k : ℕ) (st : St F) : St F :=
  let s := st.slots k
  let first := decide (st.iter ≤ 1)
  let r := dampdiff tol damp st.isInc first s
  let d := r.1
  let mi := if d ≠ 0 then stamp s.kind d st.mat st.iv else (st.mat, st.iv)
  let gone := (r.2.new - s.old) - (if !first then dnDiff tol s.new s.old * damp else dnDiff tol s.new s.old)
  let s' := { r.2 with
    old := r.2.new
    lost := if st.isInc then s.lost + gone else 0
    nlost := if st.isInc then (if gone ≠ 0 then s.nlost + 1 else s.nlost) else 0 }
  { st with mat := mi.1, iv := mi.2, slots := fun j => if j = k then s' else st.slots j }

/-- Options and inputs of one iteration. -/
structure IterIn (F : Type _) where
  incmode : Bool := true      -- OPT::incmode
  trlow : ℕ := 6              -- OPT::itl[TRLOW]
  gmin : F                    -- OPT::gmin
  lubypass : Bool := true
  traceload : Bool := true
  damp : F                    -- _damp as left by set_damp
  vals : ℕ → F                -- values the device evaluation leaves in the slots
  mark : Bool := false        -- some evaluation called mark_inc_mode_bad
  queue : List ℕ := []        -- slots reached through _loadq, in the order they are popped

/-- `set_flags` (s__solve.cc:187-197), the part about incremental mode -/
def setFlags (o : IterIn F) (st : St F) : St F :=
  if o.incmode = false then { st with inc := .no }
  else if st.inc = .bad then { st with inc := .no }
  else if st.iter = o.trlow then { st with inc := .no }
  else if st.iter = 0 then st
  else { st with inc := .yes }

/-- `clear_arrays` (s__solve.cc:204-213) -/
def clearArrays (n : ℕ) (o : IterIn F) (st : St F) : St F :=
  if !st.isInc then
    { st with mat := clearWith n o.gmin st.mat, iv := fun _ => 0, base := o.gmin }
  else st

/-- iteration count and `evaluate_models` (s__solve.cc:61-66): new values in the slots, possibly a bad mark -/
def evaluate (o : IterIn F) (st : St F) : St F :=
  { st with
    iter := st.iter + 1
    inc := if o.mark then markBad st.inc else st.inc
    slots := fun k => { st.slots k with new := o.vals k } }

/-- `load_matrix` (s__solve.cc:254-272) for a circuit with `N` slots -/
def loadMatrix (tol : F) (N : ℕ) (o : IterIn F) (st : St F) : St F :=
  if o.traceload && st.isInc then
    o.queue.foldl (fun st k => loadSlot tol o.damp k st) st
  else
    (List.range N).foldl (fun st k => loadSlot tol o.damp k st) st

/-- `solve_equations` (s__solve.cc:274-283); `fbsub(_v0,_i,_v0)` is the aliased form -/
def solveEquations (n : ℕ) (low : ℕ → ℕ) (minp : F) (o : IterIn F) (st : St F) : St F :=
  let r := luCopy n low minp (o.lubypass && st.isInc) st.mat.a st.lu st.mat.changed
  let st := { st with lu := r.1, mat := { st.mat with changed := r.2 } }
  { st with v := fbsub3Alias n low st.lu st.v st.iv }

/-- What happens to the matrix between and in the iterations of any sequence of analyses. -/
inductive Ev (F : Type _) where
  /-- `command_base`/`sweep` start (s__init.cc:46-49, s_tr_swp.cc:93, s_dc.cc:452): fresh matrix, flag set to bad -/
  | sweepStart (gmin : F) (lu : Arr F) (changed : ℕ → Bool)
  /-- `set_inc_mode_no` between solves (s__solve.cc:107) -/
  | incNo
  /-- start of `SIM::solve`: `reset_iteration_counter(iSTEP)` (s__solve.cc:48) -/
  | beginStep
  /-- `tr_unload_*` in `advance_time` (e_elemnt.h:223-228 etc., d_logic.cc:337,367,397) on slot k -/
  | unload (k : ℕ)
  /-- an iteration that loads and solves (s__solve.cc:57-87) -/
  | iter (o : IterIn F)
  /-- the last iteration of a step, which loads nothing because of `fbbypass` (s__solve.cc:84-90) -/
  | iterBypass (o : IterIn F)

def stepEv (n : ℕ) (low : ℕ → ℕ) (minp tol : F) (N : ℕ) : Ev F → St F → St F
  | .sweepStart g lu ch, st =>
    { st with mat := clearWith n g ⟨fun _ _ => 0, ch⟩, lu := lu, inc := .bad, base := g }
  | .incNo, st => { st with inc := .no }
  | .beginStep, st => { st with iter := 0 }
  | .unload k, st =>
    let st := { st with
      slots := fun j => if j = k then { st.slots j with new := 0 } else st.slots j
      inc := markBad st.inc }
    loadSlot tol 1 k st
  | .iter o, st =>
    solveEquations n low minp o (loadMatrix tol N o (evaluate o (clearArrays n o (setFlags o st))))
  | .iterBypass o, st => evaluate o (clearArrays n o (setFlags o st))

def runEv (n : ℕ) (low : ℕ → ℕ) (minp tol : F) (N : ℕ) (evs : List (Ev F)) (st : St F) : St F :=
  evs.foldl (fun st e => stepEv n low minp tol N e st) st

/-- Where `SIM::solve` stands. -/
inductive Stage where
  | idle | advancing | iterating
  deriving DecidableEq

/-- Order of events produced by `SIM::solve` and its callers: `beginStep`, unloads during `advance_time`, iterations, an
optional bypassed last iteration; everything else between solves. Returns the stage reached, or none if out of order. -/
def nextStage (N : ℕ) : Stage → Ev F → Option Stage
  | _, .sweepStart _ _ _ => some .idle
  | _, .incNo => some .idle
  | _, .beginStep => some .advancing
  | .advancing, .unload k => if k < N then some .advancing else none
  | _, .unload _ => none
  | .idle, .iter _ => none
  | _, .iter o => if o.queue.all (· < N) then some .iterating else none
  | .idle, .iterBypass _ => none
  | _, .iterBypass _ => some .idle

def stageOf (N : ℕ) (evs : List (Ev F)) : Stage → Option Stage :=
  evs.foldlM (fun s e => nextStage N s e)

end Gnucap.Load
