import Mathlib.Algebra.Field.Basic
import Mathlib.Algebra.BigOperators.Group.List.Basic
import Verif.IntegModel
import Verif.NumModel

/-!
# Devices from Spice (model)

The wrapper that lets a device model of Spice run inside gnucap (include/spice-wrapper.cc): the numbers given to the nodes in
`DEV_SPICE::expand`, the helpers a Spice device calls back (`CKTmkVolt`, `SMPmakeElt`, `NIintegrate`), what the device reads (`do_tr`,
copy in), what goes to the circuit (`tr_load`, `ac_load`), the state vectors over time, convergence and queueing, and parameters (`IFVA`).
The Spice device itself is arbitrary: any sequence of `CKTmkVolt` and joins in its `DEVsetup`, any stamps in its `DEVload`.

Simplifications: numbers are exact; `dampdiff` is taken at full step without its noise floor (these are `LoadModel`).  An index outside the
arrays of `MATRIX_NODES + 1` entries is the outcome `none`.
-/
namespace Gnucap.SpiceWrap
open Gnucap.Integ

/-! ## the numbers of the nodes -/

/-- `UNCONNECTED_NODES` (spice-wrapper.cc:886-897) -/
inductive Unconn where
  | ground | float | disallow
  deriving DecidableEq

/-- `net_nodes()`, `max_nodes()`, `matrix_nodes()` (spice-wrapper.cc:215-218) and what unconnected terminals are -/
structure Shape where
  net : ℕ
  max : ℕ
  mat : ℕ
  un : Unconn

/-- one slot of an array replaced -/
def upd {ι α : Type _} [DecidableEq ι] (f : ι → α) (i : ι) (a : α) : ι → α := fun k => if k = i then a else f k

/-- the array before `DEVsetup` (spice-wrapper.cc:881-902): `ii+OFFSET`, `SPICE_UNCONNECTED_NODE` = -1, or 0 -/
def before (s : Shape) (ii : ℕ) : ℤ :=
  if ii < s.net then (ii : ℤ) + 1
  else if ii < s.max then
    match s.un with
    | .ground => (ii : ℤ) + 1
    | .float => -1
    | .disallow => 0                 -- never: net = max
  else 0

/-- what `DEVsetup` does to the nodes: a node of its own (`CKTmkVolt`), or the number of another -/
inductive SetupOp where
  | mk (ii : ℕ)
  | join (ii jj : ℕ)
  deriving DecidableEq

/-- the node array and `CKTmaxEqNum` -/
structure Num where
  node : ℕ → ℤ
  top : ℕ

/-- `CKTmkVolt` (spice-wrapper.cc:1811-1821): `number = (CKTmaxEqNum++) + OFFSET` -/
def setupStep (n : Num) : SetupOp → Num
  | .mk ii => ⟨upd n.node ii ((n.top : ℤ) + 1), n.top + 1⟩
  | .join ii jj => ⟨upd n.node ii (n.node jj), n.top⟩

/-- the external nodes and `DEVsetup` (spice-wrapper.cc:880-926) -/
def setup (s : Shape) (ops : List SetupOp) : Num := ops.foldl setupStep ⟨before s, s.max⟩

/-! ## the nodes of the circuit -/

/-- a node of the circuit: ground, one that is there, or the one made for slot `ii` of this device (`new_model_node`) -/
inductive Circ where
  | gnd
  | outer (k : ℕ)
  | inner (ii : ℕ)
  deriving DecidableEq

/-- what terminal `ii` is connected to; `none` is ground -/
def Circ.ofExt : Option ℕ → Circ
  | none => .gnd
  | some k => .outer k

/-- `start_internal` (spice-wrapper.cc:951-961) -/
def start (s : Shape) : ℕ := match s.un with
  | .ground => s.max
  | _ => s.net

/-- `_n[jj]` before the internal nodes (spice-wrapper.cc:952-960): connected, set to ground, or nothing -/
def base (s : Shape) (ext : ℕ → Option ℕ) (jj : ℕ) : Option Circ :=
  if jj < s.net then some (.ofExt (ext jj)) else if jj < start s then some .gnd else none

/-- `_n[ii]` after "fix up internal nodes" (spice-wrapper.cc:962-984); slots `_n[node[ii]-OFFSET]` refers to are below `start_internal` -/
def wire (s : Shape) (ext : ℕ → Option ℕ) (node : ℕ → ℤ) (ii : ℕ) : Option Circ :=
  if ii < start s then base s ext ii
  else if (start s : ℤ) + 1 ≤ node ii then some (.inner ii)
  else if 1 ≤ node ii then base s ext (node ii - 1).toNat
  else none

/-- an index into `_v1`, `_i0`, `ihit`, ... is inside (spice-wrapper.cc:196-201, 1298-1299) -/
def inside (s : Shape) (n : ℤ) : Prop := 0 ≤ n ∧ n ≤ (s.mat : ℤ)

instance (s : Shape) (n : ℤ) : Decidable (inside s n) := by unfold inside; infer_instance

section
variable {F : Type _} [Field F]

/-- "copy in" (spice-wrapper.cc:1211-1221): `_v1`, what the device reads as `CKTrhsOld` -/
def copyIn (s : Shape) (wires : ℕ → Option Circ) (node : ℕ → ℤ) (v : Circ → F) : List ℕ → (ℤ → F) → Option (ℤ → F)
  | [], a => some a
  | ii :: t, a =>
    if node ii = 0 then copyIn s wires node v t a
    else if inside s (node ii) then
      match wires ii with
      | some c => copyIn s wires node v t (upd a (node ii) (v c))
      | none => none
    else none

/-- `_v1` as `do_tr` makes it -/
def seen (s : Shape) (wires : ℕ → Option Circ) (node : ℕ → ℤ) (v : Circ → F) : Option (ℤ → F) :=
  copyIn s wires node v (List.range s.mat) (fun _ => 0)

/-! ## stamps -/

/-- what `DEVload` adds: to the matrix through a pointer of `SMPmakeElt(r, c)`, to `CKTrhs[r]` -/
structure Stamps (F : Type _) where
  mat : List (ℤ × ℤ × F)
  rhs : List (ℤ × F)

/-- `SMPmakeElt` (spice-wrapper.cc:1835-1855): a place in `_matrix`; `none` is the static dustbin -/
def smp (r c : ℤ) : Option (ℤ × ℤ) := if r = 0 ∨ c = 0 then none else some (r - 1, c - 1)

/-- the pair of `_matrix` and `_i0`/`_i1`: `.first` and what was loaded last, `.second` -/
structure Dev (F : Type _) where
  m0 : ℤ → ℤ → F
  m1 : ℤ → ℤ → F
  i0 : ℤ → F
  i1 : ℤ → F

/-- "clear for copy out" and `DEVload` (spice-wrapper.cc:1222-1238) -/
def evalDev (st : Stamps F) (d : Dev F) : Dev F :=
  { d with
    m0 := st.mat.foldl (fun m e => match smp e.1 e.2.1 with
      | some p => upd m p.1 (upd (m p.1) p.2 (m p.1 p.2 + e.2.2))
      | none => m) (fun _ _ => 0)
    i0 := st.rhs.foldl (fun i e => upd i e.1 (i e.1 + e.2)) (fun _ => 0) }

/-! ## loading -/

/-- matrix and right side of the circuit -/
structure Sys (F : Type _) where
  a : Circ → Circ → F
  b : Circ → F

/-- `load_point` (m_matrix.h): nothing for ground -/
def addPoint (x y : Circ) (d : F) (sys : Sys F) : Sys F :=
  if x = .gnd ∨ y = .gnd then sys else { sys with a := upd sys.a x (upd (sys.a x) y (sys.a x y + d)) }

/-- `no1.i() += d` (e_elemnt.h:392-395) -/
def addSource (x : Circ) (d : F) (sys : Sys F) : Sys F :=
  if x = .gnd then sys else { sys with b := upd sys.b x (sys.b x + d) }

/-- `dampdiff` (e_elemnt.h:197-211) at full step -/
def amount (mf : F) (inc : Bool) (new old : F) : F := mf * (if inc then new - old else new)

/-- the columns of one row (spice-wrapper.cc:1312-1322); `jh` is `jhit`; `_n` there must be a node -/
def cols (s : Shape) (wires : ℕ → Option Circ) (node : ℕ → ℤ) (mf : F) (inc : Bool) (x : Circ) (ni : ℤ) :
    List ℕ → (ℤ → ℤ) → Dev F → Sys F → Option ((ℤ → ℤ) × Dev F × Sys F)
  | [], jh, d, sys => some (jh, d, sys)
  | jj :: t, jh, d, sys =>
    if node jj = 0 then cols s wires node mf inc x ni t jh d sys
    else if inside s (node jj) then
      if jh (node jj) ≠ ni then
        match wires jj with
        | none => none
        | some y =>
          let nii := ni - 1
          let njj := node jj - 1
          cols s wires node mf inc x ni t (upd jh (node jj) ni)
            { d with m1 := upd d.m1 nii (upd (d.m1 nii) njj (d.m0 nii njj)) }
            (addPoint x y (amount mf inc (d.m0 nii njj) (d.m1 nii njj)) sys)
      else cols s wires node mf inc x ni t jh d sys
    else none

/-- the rows (spice-wrapper.cc:1304-1327); `ih` is `ihit` -/
def rows (s : Shape) (wires : ℕ → Option Circ) (node : ℕ → ℤ) (mf : F) (inc : Bool) :
    List ℕ → (ℤ → Bool) → (ℤ → ℤ) → Dev F → Sys F → Option (Dev F × Sys F)
  | [], _, _, d, sys => some (d, sys)
  | ii :: t, ih, jh, d, sys =>
    if node ii = 0 then rows s wires node mf inc t ih jh d sys
    else if inside s (node ii) then
      if ih (node ii) = false then
        match wires ii with
        | none => none
        | some x =>
          let sys1 := addSource x (amount mf inc (d.i0 (node ii)) (d.i1 (node ii))) sys
          let d1 := { d with i1 := upd d.i1 (node ii) (d.i0 (node ii)) }
          match cols s wires node mf inc x (node ii) (List.range s.mat) jh d1 sys1 with
          | none => none
          | some (jh', d2, sys2) => rows s wires node mf inc t (upd ih (node ii) true) jh' d2 sys2
      else rows s wires node mf inc t ih jh d sys
    else none

/-- `DEV_SPICE::tr_load` (spice-wrapper.cc:1289-1328); `inc` is `is_inc_mode()` -/
def trLoad (s : Shape) (wires : ℕ → Option Circ) (node : ℕ → ℤ) (mf : F) (inc : Bool) (d : Dev F) (sys : Sys F) : Option (Dev F × Sys F) :=
  rows s wires node mf inc (List.range s.mat) (fun _ => false) (fun _ => 0) d sys

/-- `DEV_SPICE::tr_unload` (spice-wrapper.cc:1330-1340): `.first` cleared, then loaded -/
def trUnload (s : Shape) (wires : ℕ → Option Circ) (node : ℕ → ℤ) (mf : F) (inc : Bool) (d : Dev F) (sys : Sys F) : Option (Dev F × Sys F) :=
  trLoad s wires node mf inc { d with m0 := fun i j => if 0 ≤ i ∧ i < s.mat ∧ 0 ≤ j ∧ j < s.mat then 0 else d.m0 i j } sys

/-- which of the functions for AC a device has -/
structure AcFuncs where
  acLoad : Bool
  pzLoad : Bool

/-- `do_ac` then `ac_load` (spice-wrapper.cc:1463-1541), the pair of numbers as one complex; nothing was loaded before (`m1`, `i1` are the imaginary
parts there).  `st` is what `DEVpzLoad`, or else `DEVacLoad`, stamps.  `ac_load` asks for `DEVacLoad`. -/
def acLoad (f : AcFuncs) (s : Shape) (wires : ℕ → Option Circ) (node : ℕ → ℤ) (mf : F) (st : Stamps F) (sys : Sys F) : Option (Sys F) :=
  let z : Dev F := ⟨fun _ _ => 0, fun _ _ => 0, fun _ => 0, fun _ => 0⟩
  let d := if f.acLoad || f.pzLoad then evalDev st z else z
  if f.acLoad then (trLoad s wires node mf false d sys).map (·.2) else some sys

end

/-! ## states over time -/

section
variable {F : Type _}

/-- `_states`: `ptr k` is the buffer `_states[k]` points to -/
structure Mem (F : Type _) where
  buf : ℕ → ℕ → F
  ptr : ℕ → ℕ

/-- what can happen to the states: a time step, a step back, an evaluation, which sets `_states[0]` and may set `_states[1]` (`MODEINITTRAN`) -/
inductive StateOp (F : Type _) where
  | advance
  | regress
  | eval (f : (ℕ → ℕ → F) → (ℕ → F) × (ℕ → F))

/-- the states as the device sees them, `CKTstates[k]` (spice-wrapper.cc:443-445) -/
def Mem.view (m : Mem F) (k : ℕ) : ℕ → F := m.buf (m.ptr k)

/-- `tr_advance` (spice-wrapper.cc:1113-1118), `tr_regress` (1121-1125), `do_tr`; `K` is `_keep_time_steps` -/
def Mem.step (K : ℕ) (m : Mem F) : StateOp F → Mem F
  | .advance =>
    let t := m.ptr (K - 1)
    let ptr := fun k => if k = 0 then t else if k < K then m.ptr (k - 1) else m.ptr k
    ⟨upd m.buf (ptr 0) (m.buf (ptr 1)), ptr⟩
  | .regress => m
  | .eval f =>
    let r := f m.view
    ⟨upd (upd m.buf (m.ptr 1) r.2) (m.ptr 0) r.1, m.ptr⟩

/-- after `expand` (spice-wrapper.cc:931-944): buffers of their own -/
def Mem.init [Zero F] : Mem F := ⟨fun _ _ => 0, id⟩

end

/-! ## integration -/

section
variable {F : Type _} [Field F] [DecidableEq F]

/-- `CKTag[0]`, `CKTag[1]`, `CKTorder` (spice-wrapper.cc:455-467) -/
def ag (dt : F) (time : ℕ → F) (m : Method) : F × F × ℕ :=
  if dt = 0 then (0, 0, 1)
  else if time 1 ≠ 0 ∧ m = .trap then (2 / dt, 1, 2)
  else (1 / dt, -1 / dt, 1)

/-- `NIintegrate` (spice-wrapper.cc:1762-1808): `(geq, ceq)` and the new `CKTstates[0][qcap+1]` -/
def niIntegrate (ph : Phase) (dt : F) (time : ℕ → F) (m : Method) (states : ℕ → ℕ → F) (cap : F) (qcap : ℕ) : F × F × F :=
  let a := ag dt time m
  let method : Method := if a.2.2 = 1 then .euler else .trap
  let q : ℕ → FPoly F := fun ii => ⟨0, states ii qcap, cap⟩
  let i : ℕ → FPoly F := fun ii => ⟨0, states ii (qcap + 1), cap * a.1⟩
  let i0 := differentiate ph q i time method
  (i0.f1, i0.f0 - (q 0).f0 * a.1, i0.f0)

end

/-- `_time` and `_dt` -/
structure Clock (F : Type _) where
  time : ℕ → F
  dt : F

/-- a step forward, or back to a time before the one rejected (`ELEMENT::tr_advance`, `tr_regress`: e_elemnt.cc:246-271) -/
inductive TimeOp (F : Type _) where
  | advance (t : F)
  | regress (t : F)

/-- e_elemnt.cc:246-271 -/
def Clock.step {F : Type _} [Sub F] (K : ℕ) (c : Clock F) : TimeOp F → Clock F
  | .advance t =>
    let time := fun k => if k = 0 then t else if k < K then c.time (k - 1) else c.time k
    ⟨time, time 0 - time 1⟩
  | .regress t =>
    let time := fun k => if k = 0 then t else c.time k
    ⟨time, time 0 - time 1⟩

/-! ## convergence, queueing, skipping -/

section
variable {F : Type _} [Field F] [LinearOrder F]

/-- `conchk` (e_compon.h:44-48) -/
def conchk (o n a r : F) : Bool := decide (|n - o| ≤ r * |n| + a)

/-- tolerances -/
structure Tol (F : Type _) where
  abstol : F
  reltol : F
  loadtol : F
  bypasstol : F

/-- the loops over states, right side and matrix (spice-wrapper.cc:1241-1255, 1268-1277): go on while it holds -/
def allOk {α : Type} (p : α → Bool) (l : List α) (c : Bool) : Bool := l.foldl (fun c x => c && p x) c

/-- "convergence check" (spice-wrapper.cc:1239-1266); `noncon` what `DEVload` counted, `test` what `DEVconvTest` counted if there is one -/
def converged (o : Tol F) (s : Shape) (ns noncon : ℕ) (test : Option ℕ) (d : Dev F) (st0 st1 : ℕ → F) : Bool :=
  let ix := (List.range (s.mat + 1)).map (fun k : ℕ => (k : ℤ))
  let c := decide (noncon = 0)
  let c := allOk (fun k => conchk (st0 k) (st1 k) o.abstol o.reltol) (List.range ns) c
  let c := allOk (fun k => conchk (d.i0 k) (d.i1 k) o.abstol o.reltol) ix c
  let c := allOk (fun p : ℤ × ℤ => conchk (d.m0 p.1 p.2) (d.m1 p.1 p.2) o.abstol o.reltol) (ix.flatMap fun i => ix.map fun j => (i, j)) c
  match c, test with
  | true, some n => decide (n = 0)
  | c, _ => c

/-- `needs_load` (spice-wrapper.cc:1267-1278) -/
def needsLoad (o : Tol F) (s : Shape) (conv : Bool) (d : Dev F) : Bool :=
  let ix := (List.range (s.mat + 1)).map (fun k : ℕ => (k : ℤ))
  let c := allOk (fun k => conchk (d.i0 k) (d.i1 k) 0 (o.reltol * o.loadtol)) ix conv
  !(allOk (fun p : ℤ × ℤ => conchk (d.m0 p.1 p.2) (d.m1 p.1 p.2) 0 (o.reltol * o.loadtol)) (ix.flatMap fun i => ix.map fun j => (i, j)) c)

/-- what `tr_needs_eval` asks besides the voltages (spice-wrapper.cc:1129-1137) -/
structure Asked where
  queued : Bool
  conv : Bool
  advance : Bool
  startup : Bool          -- `_time[1] == 0`

/-- `tr_needs_eval` (spice-wrapper.cc:1127-1161), indices inside; `v1` what the device read last, `v` what is there now -/
def needsEval (o : Tol F) (s : Shape) (wires : ℕ → Option Circ) (node : ℕ → ℤ) (q : Asked) (v1 : ℤ → F) (v : Circ → F) : Bool :=
  let now := fun ii => ((wires ii).map v).getD 0
  if q.queued then false
  else if !q.conv then true
  else if q.advance then true
  else if q.startup then true
  else
    (List.range s.mat).any (fun ii => decide (node ii ≠ 0) && !conchk (v1 (node ii)) (now ii) 0 (o.reltol * o.bypasstol)) ||
    (List.range s.mat).any (fun ii => (List.range ii).any fun jj =>
      decide (node ii ≠ 0) && decide (node jj ≠ 0) &&
        !conchk (v1 (node ii) - v1 (node jj)) (now ii - now jj) 0 (o.reltol * o.bypasstol))

end

/-! ## parameters -/

/-- `dataType & 0xff` as far as handled -/
inductive PType where
  | flag | integer | real
  deriving DecidableEq

/-- what is in the `IFvalue`; `ub`: overflow of an `int`, or the text is beyond its buffer -/
inductive PVal where
  | int (i : ℤ)
  | real (x : ℚ)
  | ub
  deriving DecidableEq

/-- `IFVA::operator=` (spice-wrapper.cc:507-538) on the text `to_string(e_val)` (spice-wrapper.cc:603, 616, 844, 1022; l_ftos.cc:63-66) of
a parameter that may be set -/
def give (u : Num.Units) (t : PType) (x : ℚ) : PVal :=
  match Num.ftos x 0 15 ⟨false, false, false⟩ with
  | none => .ub
  | some text =>
    match t with
    | .flag => .int 1
    | .integer => match Num.ctoi text with
      | some (i, _, _) => .int i
      | none => .ub
    | .real => match Num.ctof u text with
      | .num y _ => .real y
      | .none _ => .real 0
      | .ub => .ub

end Gnucap.SpiceWrap
