import Verif.AnaCmdModel
import Verif.MeasureModel
import Verif.InterpModel
import Verif.PrbCmdModel
import Verif.ParamModel

/-!
# The command `measure` and the waveforms it works on (model)

`CMD_MEASURE::do_it` (apps/c_measure.cc:34-54), the functions it calls up to their arithmetic (apps/measure_*.cc), `find_wave`
(lib/e_base.cc:156-170), and what makes the stored waveforms: `SIM::head` and `SIM::store_results` (apps/s__out.cc:82-89, 142-151),
the lists of probes and the kind of analysis they are for (apps/c_prbcmd.cc:47-118, lib/u_prblst.cc:32-40).  The arithmetic is
`MeasureModel`.

The text is that behind the name of the command, without blanks in front.  The values of texts are given from outside, so is what
`to_string` makes of a number.  `outset` and printing are left out.
-/
namespace Gnucap.MeasCmd
open Gnucap.Scan Gnucap.Spice Gnucap.Num
open Gnucap.AnaCmd (Param parse)
open Gnucap.PrbCmd (Mode)

/-! ## Waveforms -/

/-- a probe: its label and the object it looks at -/
structure Probe where
  label : List Char
  obj : ℕ
  deriving DecidableEq

abbrev Wave := List (ℚ × ℚ)

/-- `_probe_lists->store`, `_sim->_mode` and `_sim->_waves` (`none`: null) -/
structure St where
  lists : Mode → List Probe
  mode : Mode
  waves : Option (List Wave)

/-- at the start (lib/u_sim_data.cc:52, 73) -/
def St.init : St := ⟨fun _ => [], .none, none⟩

/-- how an analysis goes: it ends before `head` (an exception in `setup` or `init`, or nothing to run: apps/s__init.cc:41-65), or it
writes a row for each of these (what it sweeps over, the value of each probe) -/
inductive Run where
  | early
  | rows (l : List (ℚ × (Probe → ℚ)))

/-- `store_results` (apps/s__out.cc:142-151): a point for each probe; `none`: beyond the waves -/
def push (x : ℚ) (v : Probe → ℚ) : List Probe → List Wave → Option (List Wave)
  | [], ws => some ws
  | _ :: _, [] => none
  | p :: ps, w :: ws => (push x v ps ws).map ((w ++ [(x, v p)]) :: ·)

/-- all rows -/
def pushAll (ps : List Probe) : List (ℚ × (Probe → ℚ)) → List Wave → Option (List Wave)
  | [], ws => some ws
  | (x, v) :: l, ws => (push x v ps ws).bind (pushAll ps l)

/-- What happens to the lists and waves: `store` of a kind (with the list it leaves, apps/c_prbcmd.cc:76-118), `store clear` (73-76, all
kinds), another command for probes or a listing (47), the end of the objects for which `gone` holds (lib/u_prblst.cc:32-40), an analysis -/
inductive Op where
  | store (m : Mode) (l : List Probe)
  | clear
  | other
  | purge (gone : ℕ → Bool)
  | run (m : Mode) (r : Run)

/-- one of them; `none`: undefined behaviour -/
def step (s : St) : Op → Option St
  | .store m l => some ⟨if m = .none then s.lists else Function.update s.lists m l, .none, s.waves⟩
  | .clear => some ⟨fun _ => [], .none, s.waves⟩
  | .other => some { s with mode := .none }
  | .purge gone => some { s with lists := fun m => (s.lists m).filter fun p => !gone p.obj }
  | .run m .early => some { s with mode := m }
  | .run m (.rows l) => (pushAll (s.lists m) l ((s.lists m).map fun _ => [])).map fun ws => { s with mode := m, waves := some ws }

/-- all of them -/
def steps (s : St) : List Op → Option St
  | [] => some s
  | o :: l => (step s o).bind fun s => steps s l

/-- what a look for a wave gives -/
inductive Found where
  | wave (w : Wave)
  | none
  | ub
  deriving DecidableEq

/-- `find_wave` (lib/e_base.cc:156-170) -/
def findWave (ci : Bool) (s : St) (name : List Char) : Found :=
  match (s.lists s.mode).findIdx? fun p => Wmatch.wmatch ci p.label name with
  | .none => .none
  | some i =>
    match s.waves with
    | .none => .ub
    | some ws => match ws[i]? with
      | some w => .wave w
      | .none => .ub

/-! ## Arguments -/

inductive Slot where
  | before | after | cross | x | start | stop
  deriving DecidableEq

inductive Flag where
  | last | arg | fall | deriv | expr
  deriving DecidableEq

inductive Act where
  | probe
  | num (s : Slot)
  | set (f : Flag) (b : Bool)
  | bool (f : Flag)
  deriving DecidableEq

structure Args where
  probe : List Char
  num : Slot → Param
  flag : Flag → Bool

inductive Fn where
  | max | min | cross | average | rms | integral | at | slew
  deriving DecidableEq

/-- the five words all but `at` take (apps/measure_max.cc:51-55 and the same lines in the others) -/
def windowTable : List (List Char × Act) := [
  (['p', 'r', 'o', 'b', 'e'], .probe),
  (['b', 'e', 'f', 'o', 'r', 'e'], .num .before),
  (['a', 'f', 't', 'e', 'r'], .num .after),
  (['e', 'n', 'd'], .num .before),
  (['b', 'e', 'g', 'i', 'n'], .num .after)]

/-- apps/measure_max.cc:57-58, measure_min.cc:57-58, measure_cross.cc:60-61, measure_slewrate.cc:63-64 -/
def lastTable : List (List Char × Act) := [
  (['l', 'a', 's', 't'], .set .last true),
  (['f', 'i', 'r', 's', 't'], .set .last false)]

def Fn.table : Fn → List (List Char × Act)
  | .max => windowTable ++ (['a', 'r', 'g'], .set .arg true) :: lastTable                        -- measure_max.cc:51-58
  | .min => windowTable ++ (['a', 'r', 'g'], .set .arg true) :: lastTable                        -- measure_min.cc:51-58
  | .cross => windowTable ++ (['c', 'r', 'o', 's', 's'], .num .cross) ::                         -- measure_cross.cc:52-61
      (['r', 'i', 's', 'e'], .set .fall false) :: (['f', 'a', 'l', 'l'], .set .fall true) :: lastTable
  | .average => windowTable                                                                      -- measure_average.cc:49-53
  | .rms => windowTable                                                                          -- measure_rms.cc:49-53
  | .integral => windowTable                                                                     -- measure_integral.cc:49-53
  | .at => [                                                                                     -- measure_at.cc:49-52
      (['p', 'r', 'o', 'b', 'e'], .probe),
      (['x'], .num .x),
      (['a', 't'], .num .x),
      (['d', 'e', 'r', 'i', 'v', '{', 'a', 't', 'i', 'v', 'e', '}'], .bool .deriv)]
  | .slew => windowTable ++ (['i', 'n', 'i', 't', 'i', 'a', 'l'], .num .start) ::                -- measure_slewrate.cc:54-65
      (['f', 'i', 'n', 'a', 'l'], .num .stop) :: (['s', 't', 'a', 'r', 't', '_', 'v', 'a', 'l'], .num .start) ::
      (['t', 'o'], .num .stop) :: lastTable ++ [(['e', 'x', 'p', 'r', '{', 'e', 's', 's', 'i', 'o', 'n', '}'], .set .expr true)]

/-- the initial values (measure_max.cc:34-37 and the same lines in the others): the two bounds and `cross` are numbers, the others not given -/
def Args.init (big : ℚ) : Args where
  probe := []
  num := fun
    | .before => .num big
    | .after => .num (-big)
    | .cross => .num 0
    | _ => .unset
  flag := fun _ => false

/-- `OPT::units`, `OPT::case_insensitive`, `BIGBIG`, and the values of texts -/
structure Env where
  units : Units
  ci : Bool
  big : ℚ
  val : List Char → ℚ

/-- include/ap.h:174, 196; include/u_parameter.h:676; lib/ap_get.cc:32 -/
def Act.pattern (key : List Char) : Act → List Char
  | .probe => key ++ [' ', '{', '=', '}']
  | .num _ => key ++ [' ', '{', '=', '}']
  | .set _ _ => key ++ [' ']
  | .bool _ => key ++ [' ']

/-- what is done with the text behind the word (include/ap.h:175, 197; include/u_parameter.h:677; lib/ap_get.cc:33-38); `none`: undefined
behaviour in the scanner -/
def Act.run (e : Env) (a : Args) (r : List Char) : Act → Option (Args × List Char)
  | .probe => some ({ a with probe := (word r).1 }, (word r).2)
  | .num s => (parse e.units e.ci (a.num s) r).map fun x => ({ a with num := Function.update a.num s x.1 }, x.2)
  | .set f b => some ({ a with flag := Function.update a.flag f b }, r)
  | .bool f =>
    if (skip1b ['='] r).1 then
      some ({ a with flag := Function.update a.flag f (Opt.ctob e.ci (skip1b ['='] r).2).1 }, (Opt.ctob e.ci (skip1b ['='] r).2).2)
    else some ({ a with flag := Function.update a.flag f true }, (skip1b ['='] r).2)

/-- the alternatives in order (lib/ap_get.cc:39-41 for `no`) -/
def tryAll (e : Env) (a : Args) (s : List Char) : List (List Char × Act) → Option (Args × List Char)
  | [] => some (a, s)
  | (key, x) :: l =>
    match umatch e.ci (x.pattern key) s with
    | .ok r => x.run e a r
    | .ub => none
    | .fail =>
      match x with
      | .bool f =>
        match umatch e.ci (['n', 'o'] ++ key) s with
        | .ok r => some ({ a with flag := Function.update a.flag f false }, r)
        | .ub => none
        | .fail => tryAll e a s l
      | _ => tryAll e a s l

inductive End where
  | done (a : Args) (rest : List Char)
  | ub
  | running

/-- the loop (measure_max.cc:48-60 and the same lines in the others); `here` is how much text there was at the last look -/
def loop (e : Env) (t : List (List Char × Act)) : ℕ → Args → ℕ → List Char → End
  | 0, _, _, _ => .running
  | n + 1, a, here, s =>
    match tryAll e a s t with
    | none => .ub
    | some (a, r) =>
      if skipbl r = [] then .done a []
      else if (skipbl r).length < here then loop e t n a (skipbl r).length (skipbl r)
      else .done a (skipbl r)

/-! ## Values -/

/-- what a function gives: a number, the square root of one, the text of `(b-a)/(t2-t1)`, not a number, a bound that is NA, an exception,
undefined behaviour -/
inductive Val where
  | num (x : ℚ)
  | root (x : ℚ)
  | quot (b a t2 t1 : ℚ)
  | nan
  | na
  | throw
  | ub
  deriving DecidableEq

def ofRes (f : ℚ → Val) : Measure.Res ℚ → Val
  | .num x => f x
  | .nan => .nan
  | .ub => .ub

/-- the value of an argument (`e_val`), with the default of the function -/
def Args.val (e : Env) (a : Args) (s : Slot) (d : ℚ) (k : ℚ → Val) : Val :=
  match (a.num s).val e.val d with
  | some v => k v
  | none => .na

/-- what the functions do with a wave (from `if (w)` on) -/
def Fn.value (e : Env) (a : Args) (w : Wave) : Fn → Val
  | .max => a.val e .before e.big fun b => a.val e .after (-e.big) fun l =>                       -- measure_max.cc:68-84
      let r := Measure.max e.big (a.flag .last) w l b
      .num (if a.flag .arg then r.1 else r.2)
  | .min => a.val e .before e.big fun b => a.val e .after (-e.big) fun l =>                       -- measure_min.cc:68-84
      let r := Measure.min e.big (a.flag .last) w l b
      .num (if a.flag .arg then r.1 else r.2)
  | .cross => a.val e .before e.big fun b => a.val e .after (-e.big) fun l => a.val e .cross 0 fun c =>  -- measure_cross.cc:71-106
      .num (Measure.cross e.big (if a.flag .fall then -1 else 1) c (a.flag .last) w l b)
  | .average => a.val e .before e.big fun b => a.val e .after (-e.big) fun l => ofRes .num (Measure.average w l b)
  | .rms => a.val e .before e.big fun b => a.val e .after (-e.big) fun l => ofRes .root (Measure.rmsSquare w l b)
  | .integral => a.val e .before e.big fun b => a.val e .after (-e.big) fun l => ofRes .num (Measure.integral w l b)
  | .at => a.val e .x e.big fun x =>                                                              -- measure_at.cc:62-63
      match (⟨w, 0⟩ : Interp.Wave ℚ).vOut x with
      | .ok p => .num (if a.flag .deriv then p.f1 else p.f0)
      | .throw => .throw
      | .ub => .ub
  | .slew => a.val e .before e.big fun b => a.val e .after (-e.big) fun l =>                      -- measure_slewrate.cc:75-143
      a.val e .start 0 fun v1 => a.val e .stop 0 fun v2 =>
      let r := Measure.slew e.big v1 v2 (a.flag .last) w l b
      if r.2 < e.big then if a.flag .expr then .quot v2 v1 r.2 r.1 else .num ((v2 - v1) / (r.2 - r.1)) else .num e.big

/-! ## The command -/

/-- the names the functions are installed by (the last lines of apps/measure_*.cc) -/
def fnTable : List (List Char × Fn) := [
  (['m', 'a', 'x'], .max), (['m', 'i', 'n'], .min), (['c', 'r', 'o', 's', 's'], .cross),
  (['a', 'v', 'e', 'r', 'a', 'g', 'e'], .average), (['m', 'e', 'a', 'n'], .average), (['r', 'm', 's'], .rms),
  (['i', 'n', 't', 'e', 'g', 'r', 'a', 't', 'e'], .integral), (['i', 'n', 't', 'e', 'g', 'r', 'a', 'l'], .integral), (['a', 'r', 'e', 'a'], .integral),
  (['a', 't'], .at), (['d', 'd', 't'], .slew), (['s', 'l', 'e', 'w', 'r', 'a', 't', 'e'], .slew), (['s', 'l', 'o', 'p', 'e'], .slew)]

/-- `measure_dispatcher[function]` (include/l_dispatcher.h:88-98) -/
def dispatch (ci : Bool) (w : List Char) : Option Fn :=
  match fnTable.lookup w with
  | some f => some f
  | none => if ci then fnTable.lookup (w.map Char.toLower) else none

/-- how the command ends -/
inductive Out where
  | value (name : List Char) (v : Val) (rest : List Char)
  | noFunction (w : List Char)
  | noProbe (w : List Char)
  | ub
  | running

/-- `eval` of a function (apps/measure_max.cc:32-86, and the same lines in the others): the value and the text behind -/
def Fn.eval (e : Env) (s : St) (f : Fn) (name t : List Char) : Out :=
  let w := word t                                                                                 -- 39-46
  match findWave e.ci s w.1 with
  | .ub => .ub
  | .wave v =>
    match loop e f.table (w.2.length + 1) { Args.init e.big with probe := w.1 } w.2.length w.2 with
    | .done a r => .value name (f.value e a v) r
    | .ub => .ub
    | .running => .running
  | .none =>
    match loop e f.table (t.length + 1) { Args.init e.big with probe := w.1 } t.length t with
    | .done a r =>
      match findWave e.ci s a.probe with
      | .ub => .ub
      | .none => .noProbe a.probe
      | .wave v => .value name (f.value e a v) r
    | .ub => .ub
    | .running => .running

/-- `CMD_MEASURE::do_it` (apps/c_measure.cc:34-54), up to the parenthesis at the end.  `eval` (measure_eval.cc) is left out: it is not
found here. -/
def command (e : Env) (s : St) (t : List Char) : Out :=
  let n := word t
  let f := word (skip1b ['='] n.2).2
  match dispatch e.ci f.1 with
  | none => .noFunction f.1
  | some g => g.eval e s n.1 (skip1b ['('] f.2).2

/-- `pl->set(assign_to, value)` (apps/c_measure.cc:48-49), with the text of the value -/
def assign (E : Param.Env) (f : Param.Frame) (name text : List Char) : Param.Frame := Param.setParam E f name text

end Gnucap.MeasCmd
