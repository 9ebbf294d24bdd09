import Mathlib.Algebra.Order.Field.Basic
import Mathlib.Data.Rat.Defs

/-!
# Digital values, gates, digital nodes (model)

`LOGICVAL`, the gates of `d_logic.cc`, the state machine of `LOGIC_NODE`.  Time and voltage in exact arithmetic; the quality
counters, iteration tags and messages are left out (they decide only whether a mixed mode gate is simulated as analog).
-/
namespace Gnucap.Logic

/-- `_LOGICVAL` (e_logicval.h:29) -/
inductive LV where
  | s0 | rising | falling | s1 | unknown
deriving DecidableEq, Repr

open LV

/-- `or_truth` (e_logicval.cc:27-33) -/
def orT : LV → LV → LV
  | s0, b => match b with | s0 => s0 | rising => rising | falling => falling | s1 => s1 | unknown => unknown
  | rising, b => match b with | s0 => rising | rising => rising | falling => rising | s1 => s1 | unknown => rising
  | falling, b => match b with | s0 => falling | rising => rising | falling => falling | s1 => s1 | unknown => unknown
  | s1, b => match b with | s0 => s1 | rising => s1 | falling => s1 | s1 => s1 | unknown => s1
  | unknown, b => match b with | s0 => unknown | rising => rising | falling => unknown | s1 => s1 | unknown => unknown

/-- `xor_truth` (e_logicval.cc:35-41) -/
def xorT : LV → LV → LV
  | s0, b => match b with | s0 => s0 | rising => rising | falling => falling | s1 => s1 | unknown => unknown
  | rising, b => match b with | s0 => rising | rising => falling | falling => rising | s1 => falling | unknown => unknown
  | falling, b => match b with | s0 => falling | rising => rising | falling => falling | s1 => rising | unknown => unknown
  | s1, b => match b with | s0 => s1 | rising => falling | falling => rising | s1 => s0 | unknown => unknown
  | unknown, _ => unknown

/-- `and_truth` (e_logicval.cc:43-49) -/
def andT : LV → LV → LV
  | s0, _ => s0
  | rising, b => match b with | s0 => s0 | rising => rising | falling => falling | s1 => rising | unknown => unknown
  | falling, b => match b with | s0 => s0 | rising => falling | falling => falling | s1 => falling | unknown => falling
  | s1, b => match b with | s0 => s0 | rising => rising | falling => falling | s1 => s1 | unknown => unknown
  | unknown, b => match b with | s0 => s0 | rising => unknown | falling => falling | s1 => unknown | unknown => unknown

/-- `not_truth` (e_logicval.cc:51-53) -/
def notT : LV → LV
  | s0 => s1 | rising => falling | falling => rising | s1 => s0 | unknown => unknown

/-- `prop_truth` (e_logicval.cc:55-61) -/
def propT : LV → LV → LV
  | s0, b => match b with | s0 => s0 | s1 => rising | _ => unknown
  | rising, b => match b with | s0 => falling | s1 => rising | _ => unknown
  | falling, b => match b with | s0 => falling | s1 => rising | _ => unknown
  | s1, b => match b with | s0 => falling | s1 => s1 | _ => unknown
  | unknown, b => match b with | s0 => falling | s1 => rising | _ => unknown

/-- `lv_future` (e_logicval.h:60), bit 0; `none` where the assertion would fail -/
def lvFuture : LV → Option Bool
  | s0 => some false | rising => some true | falling => some false | s1 => some true | unknown => none

/-- `lv_old` (e_logicval.h:61), bit 1 -/
def lvOld : LV → Option Bool
  | s0 => some false | rising => some false | falling => some true | s1 => some true | unknown => none

/-- the gates (d_logic.cc:118-224) -/
inductive Gate where
  | and | nand | or | nor | xor | xnor | inv
deriving DecidableEq, Repr

/-- `logic_eval` (d_logic.cc:124-130 and likewise for the others): the first input, then `op=` with each further one.  The list
of inputs is its first input and the rest (`min_nodes` is 2: one input at least, d_logic.cc:60). -/
def logicEval : Gate → LV → List LV → LV
  | .and, a, r => r.foldl andT a
  | .nand, a, r => notT (r.foldl andT a)
  | .or, a, r => r.foldl orT a
  | .nor, a, r => notT (r.foldl orT a)
  | .xor, a, r => r.foldl xorT a
  | .xnor, a, r => notT (r.foldl xorT a)
  | .inv, a, _ => notT a

/-! ## Digital node (e_logicnode.cc) -/

/-- the parts of `LOGIC_NODE` (e_logicnode.h:36-46) that carry the value; `finalTime = none` is `NEVER` -/
structure Node (F : Type _) where
  lv : LV
  oldLv : LV
  finalTime : Option F
  lastchange : F
  oldLastchange : F
deriving DecidableEq

variable {F : Type _} [Field F] [LinearOrder F]

/-- `LOGIC_NODE::propagate` (e_logicnode.cc:268-282) at time `now` -/
def Node.propagate (now : F) (n : Node F) : Node F :=
  { n with
    lv := match n.lv with | rising => s1 | falling => s0 | x => x
    finalTime := none
    lastchange := now }

/-- `LOGIC_NODE::unpropagate` (e_logicnode.cc:284-290) -/
def Node.unpropagate (n : Node F) : Node F :=
  { n with finalTime := some n.lastchange, lastchange := n.oldLastchange, lv := n.oldLv }

/-- `LOGIC_NODE::set_event` (e_logicnode.cc:309-327) at time `now`; `ft` is what `new_event` returned; `none`: the assertion
in `set_in_transition` fails (e_logicval.h:72) -/
def Node.setEvent (now ft : F) (v : LV) (n : Node F) : Option (Node F) :=
  let lv' := propT n.lv v
  if lv' = unknown then none
  else some { n with lv := lv', finalTime := some ft, lastchange := now }

/-- digital part of `DEV_LOGIC::tr_advance` (d_logic.cc:379-389) -/
def Node.advance (now : F) (n : Node F) : Node F :=
  match n.finalTime with
  | some ft => if ft ≤ now then n.propagate now else n
  | none => n

/-- digital part of `DEV_LOGIC::tr_regress` (d_logic.cc:409-418) -/
def Node.regress (now : F) (n : Node F) : Node F :=
  if now < n.lastchange then n.unpropagate
  else match n.finalTime with
    | some ft => if ft ≤ now then n.propagate now else n
    | none => n

/-- the two stores at the end of `DEV_LOGIC::tr_accept` (d_logic.cc:667-668) -/
def Node.store (n : Node F) : Node F := { n with oldLastchange := n.lastchange, oldLv := n.lv }

/-- "the value without this contamination" (d_logic.cc:636-642) -/
def uncontaminated : LV → LV
  | rising => s0 | falling => s1 | x => x

/-- what a gate does with its evaluated inputs in a transient analysis (d_logic.cc:625-666); `none`: an assertion fails.
`eval = false` is the bypass. -/
def Node.accept (now ft : F) (eval : Bool) (fs : LV) (n : Node F) : Option (Node F) :=
  if eval then
    if fs = n.lv then some n.store
    else
      match uncontaminated fs with
      | unknown => none                                            -- 635
      | v =>
        if n.lv = unknown ∨ lvFuture v ≠ lvFuture n.lv then (n.setEvent now ft v).map Node.store   -- 651-653
        else some n.store
  else some n.store

/-! ## Conversion (e_logicnode.cc) -/

/-- the parameters of `MODEL_LOGIC` used in the conversions (e_logicmod.h:51-61) -/
structure Family (F : Type _) where
  vmax : F
  vmin : F
  unknownV : F
  rise : F
  fall : F
  th1 : F
  th0 : F

/-- `range` (d_logicmod.cc:93) -/
def Family.range (m : Family F) : F := m.vmax - m.vmin

/-- the logic value set by `to_logic` (e_logicnode.cc:130-208) for voltage `v`, previous voltage `vOld`, previous value `lv` -/
def toLogic (m : Family F) (v vOld : F) (lv : LV) : LV :=
  let sv := v / m.range
  if m.th1 ≤ sv then s1
  else if sv ≤ m.th0 then s0
  else
    let diff := sv - vOld / m.range
    if 0 < diff then rising
    else if diff < 0 then falling
    else lv

/-- `to_analog` (e_logicnode.cc:224-266); a `NEVER` final time is later than any time, so the result is `start` -/
def toAnalog (m : Family F) (now : F) (n : Node F) : F :=
  let ramp (start stop risefall : F) : F :=
    match n.finalTime with
    | none => start
    | some ft =>
      if now ≤ ft - risefall then start
      else if ft ≤ now then stop
      else stop - (stop - start) * (ft - now) / risefall
  match n.lv with
  | s0 => m.vmin
  | s1 => m.vmax
  | unknown => m.unknownV
  | rising => ramp m.vmin m.vmax m.rise
  | falling => ramp m.vmax m.vmin m.fall

end Gnucap.Logic
