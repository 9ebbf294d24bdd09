import Mathlib.Data.List.Basic

/-!
# Which function serves which analysis (model)

`EVAL_BM_COND` (lib/bm_cond.cc): what follows the nodes of an element is a list of clauses, each with or without the name of
an analysis (`ac`, `op`, `dc`, `tran`, `four`), and a function.  Scanning the text is left out: a clause comes as its keyword and its
function.  Reference counting of the functions is in RefModel; a function is an opaque object with the properties the code asks for.
-/
namespace Gnucap.Cond

/-- `SIM_MODE` (mode.h:37-44); `none` is also "no keyword", `else` and `all` (bm_cond.cc:117-119) -/
inductive Mode where
  | none | ac | op | dc | tran | fourier
deriving DecidableEq

/-- A function as `parse_common_obsolete_callback` sees it: `isValue` is the `dynamic_cast<EVAL_BM_VALUE*>` (bm_cond.cc:151),
`action` whether it is an `EVAL_BM_ACTION_BASE` at all (logic gates in the same dispatcher are not, d_logic.cc:718-748),
`acToo` its `ac_too()` -/
structure Fn where
  id : ℕ
  isValue : Bool
  action : Bool
  acToo : Bool
deriving DecidableEq

/-- `func_zero` (bm_cond.cc:33) -/
def Fn.zero : Fn := ⟨0, true, true, false⟩

/-- A clause: keyword, and function; `none` if the line ends after the keyword (bm_cond.cc:141-143) -/
structure Clause where
  mode : Mode
  fn : Option Fn
deriving DecidableEq

/-- `_func[]` and `_set[]` -/
structure Sel where
  func : Mode → Option Fn
  set : Mode → Bool

/-- the constructor (bm_cond.cc:66-71) -/
def Sel.empty : Sel := ⟨fun _ => none, fun _ => false⟩

/-- The mode a clause is entered under (bm_cond.cc:148-154) -/
def Sel.modeOf (s : Sel) (isSource : Bool) (c : Clause) : Mode :=
  if isSource && c.mode = .none && !s.set .dc && (c.fn.map Fn.isValue).getD false then .dc else c.mode

/-- One turn of the loop (bm_cond.cc:109-164) -/
def Sel.clause (isSource : Bool) (s : Sel) (c : Clause) : Sel :=
  let m := s.modeOf isSource c
  ⟨Function.update s.func m (some (c.fn.getD .zero)), Function.update s.set m true⟩

/-- `if (!_func[m] && _set[from]) attach_common(_func[from], &_func[m])` -/
def Sel.default (s : Sel) (m src : Mode) : Sel :=
  if (s.func m).isNone && s.set src then { s with func := Function.update s.func m (s.func src) } else s

/-- `if (!_func[m]) attach_common(&func_zero, &_func[m])` -/
def Sel.zeroed (s : Sel) (m : Mode) : Sel :=
  if (s.func m).isNone then { s with func := Function.update s.func m (some .zero) } else s

/-- `ac_too()` of `_func[s_NONE]` after the unchecked cast (bm_cond.cc:188-190): `none` is undefined behaviour -/
def Sel.acToo (s : Sel) : Option Bool :=
  match s.func .none with
  | none => none
  | some f => if f.action then some f.acToo else none

/-- "apply rules to determine states not explicitly specified" (bm_cond.cc:170-192); `none` is undefined behaviour -/
def Sel.rules (isSource : Bool) (s : Sel) : Option Sel :=
  let s := s.default .op .dc
  let s := s.default .op .none
  let s := s.default .op .tran
  let s := s.zeroed .op
  let s := s.default .dc .none
  let s := s.default .dc .op
  let s := s.default .dc .tran
  let s := s.zeroed .dc
  let s := s.default .tran .none
  let s := s.default .tran .dc
  let s := s.default .tran .op
  let s := s.zeroed .tran
  let s := if (s.func .fourier).isNone then { s with func := Function.update s.func .fourier (s.func .tran) } else s
  let too : Option Bool :=
    if (s.func .ac).isNone && s.set .none then (if !isSource then some true else s.acToo) else some false
  too.map fun b =>
    let s := if b then { s with func := Function.update s.func .ac (s.func .none) } else s
    s.zeroed .ac

/-- `EVAL_BM_COND::parse_common_obsolete_callback` (bm_cond.cc:101-197) -/
def parse (isSource : Bool) (cs : List Clause) : Option Sel :=
  (cs.foldl (Sel.clause isSource) Sel.empty).rules isSource

/-- `EVAL_BM_COND::print_common_obsolete_callback` (bm_cond.cc:263-284): the clauses written out -/
def Sel.print (s : Sel) : List Clause :=
  [Mode.none, .fourier, .tran, .dc, .op, .ac].filterMap fun m => if s.set m then some ⟨m, s.func m⟩ else Option.none

end Gnucap.Cond
