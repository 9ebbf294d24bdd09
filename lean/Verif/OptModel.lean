import Verif.SpiceModel
import Verif.NumModel

/-!
# The options command (model of `OPT::set_values`, `OPT::print`: u_opt2.cc; `Get`: ap_get.cc, ap.h, u_lang.cc)

`set_verilog_math` (u_opt2.cc:168) and messages are left out.  Numbers are rational; a conversion of a number that an `int` cannot
hold is the outcome `ub`.
-/
namespace Gnucap.Opt
open Gnucap.Scan Gnucap.Num

/-- the variables of `OPT` that can be set (u_opt.h:85-170); `itl`, `trstepcoef`: one for each place, `insensitive` is
`case_insensitive` -/
inductive Var where
  | acct | listing | mod | page | node | opts | gmin | bypasstol | loadtol | reltol | abstol | vntol | trtol | chgtol | pivtol
  | pivrel | numdgt | tnom_c | cptime | limtim | limpts | lvlcod | lvltim | method | maxord | defl | defw | defad | defas
  | clobber | dampmax | dampmin | dampstrategy | floor | vfloor | roundofftol | temp_c | shortckt | outwidth | ydivisions | picky
  | phase | order | mode | transits | dupcheck | bypass | incmode | lcbypass | lubypass | fbbypass | traceload | itermin | vmax
  | vmin | dtmin | dtratio | rstray | cstray | harmonics | trstepgrow | trstephold | trstepshrink | trreject | trsteporder
  | trstepcoef1 | trstepcoef2 | trstepcoef3 | showall | foooo | diodeflags | mosflags | quitconvfail | edit | recursion
  | language | insensitive | units | itl1 | itl2 | itl3 | itl4 | itl5 | itl6 | itl7 | itl8
deriving DecidableEq

/-- a language: its name, `case_insensitive()`, `units()` (u_lang.h:45-46) -/
structure Lang where
  name : List Char
  ci : Bool
  units : ℤ
deriving DecidableEq

/-- the values, by type; `int` also holds the enumerations and the `unsigned` -/
structure Opts where
  flag : Var → Bool
  num : Var → ℚ
  int : Var → ℤ
  lang : Option Lang
  lowlim : ℚ
  uplim : ℚ

def Opts.setFlag (o : Opts) (v : Var) (b : Bool) : Opts := { o with flag := fun w => if w = v then b else o.flag w }
def Opts.setNum (o : Opts) (v : Var) (x : ℚ) : Opts := { o with num := fun w => if w = v then x else o.num w }
def Opts.setInt (o : Opts) (v : Var) (z : ℤ) : Opts := { o with int := fun w => if w = v then z else o.int w }

/-- `OPT::units` -/
def Opts.units (o : Opts) : Units := if o.int .units = 1 then .spice else .si
/-- `OPT::case_insensitive` -/
def Opts.ci (o : Opts) : Bool := o.flag .insensitive

/-- how an option is read -/
inductive Kind where
  | flag                                  -- `Get` of `bool` (ap_get.cc:30-45)
  | num (positive : Bool)                 -- `Get` of `double`, `mPOSITIVE` (ap_get.cc:65-81) or plain (ap.h:171-180)
  | int                                   -- `Get` of `int` (ap_get.cc:47-63)
  | range                                 -- the same, then 1 to 3 (u_opt2.cc:156)
  | oct                                   -- the same with `mOCTAL`
  | uns                                   -- `Get` of `unsigned` (ap.h:171-180)
  | set (value : ℤ)                       -- `Set` (ap.h:193-202)
  | enm (choices : List (List Char × ℤ))  -- a name, then `Set` of one of these (u_opt2.cc:39-51, 116-134, 172-176)
  | lang                                  -- `Get` of `LANGUAGE*` (u_lang.cc:184-205)

structure Entry where
  key : List Char
  var : Var
  kind : Kind

/-- the alternatives in the order they are tried (u_opt2.cc:63-184; the methods: 42-49) -/
def table : List Entry :=
  [⟨['a','c','c','t'], .acct, .flag⟩,
   ⟨['l','i','s','t'], .listing, .flag⟩,
   ⟨['m','o','d'], .mod, .flag⟩,
   ⟨['p','a','g','e'], .page, .flag⟩,
   ⟨['n','o','d','e'], .node, .flag⟩,
   ⟨['o','p','t','s'], .opts, .flag⟩,
   ⟨['g','m','i','n'], .gmin, .num true⟩,
   ⟨['b','y','p','a','s','s','t','o','l'], .bypasstol, .num true⟩,
   ⟨['l','o','a','d','t','o','l'], .loadtol, .num true⟩,
   ⟨['r','e','l','t','o','l'], .reltol, .num true⟩,
   ⟨['a','b','s','t','o','l'], .abstol, .num true⟩,
   ⟨['v','n','t','o','l'], .vntol, .num true⟩,
   ⟨['t','r','t','o','l'], .trtol, .num true⟩,
   ⟨['c','h','g','t','o','l'], .chgtol, .num true⟩,
   ⟨['p','i','v','t','o','l'], .pivtol, .num true⟩,
   ⟨['p','i','v','r','e','l'], .pivrel, .num true⟩,
   ⟨['n','u','m','d','g','t'], .numdgt, .int⟩,
   ⟨['t','n','o','m'], .tnom_c, .num false⟩,
   ⟨['c','p','t','i','m','e'], .cptime, .int⟩,
   ⟨['l','i','m','t','i','m'], .limtim, .int⟩,
   ⟨['l','i','m','p','t','s'], .limpts, .int⟩,
   ⟨['l','v','l','c','o','d'], .lvlcod, .int⟩,
   ⟨['l','v','l','t','i','m'], .lvltim, .int⟩,
   ⟨['m','e','t','h','o','d'], .method, .enm [(['e','u','l','e','r'], 1), (['e','u','l','e','r','o','{','n','l','y','}'], 2), (['t','r','a','p','{','e','z','o','i','d','a','l','}'], 3), (['t','r','a','p','o','{','n','l','y','}'], 4), (['g','e','a','r','{','2','}'], 5), (['g','e','a','r','2','o','{','n','l','y','}'], 6), (['t','{','r','a','p','}','g','{','e','a','r','}'], 7), (['t','{','r','a','p','}','e','{','u','l','e','r','}'], 8)]⟩,
   ⟨['m','a','x','o','r','d'], .maxord, .int⟩,
   ⟨['d','e','f','l'], .defl, .num true⟩,
   ⟨['d','e','f','w'], .defw, .num true⟩,
   ⟨['d','e','f','a','d'], .defad, .num true⟩,
   ⟨['d','e','f','a','s'], .defas, .num true⟩,
   ⟨['c','l','o','b','b','e','r'], .clobber, .flag⟩,
   ⟨['d','a','m','p','m','a','x'], .dampmax, .num true⟩,
   ⟨['d','a','m','p','m','i','n'], .dampmin, .num true⟩,
   ⟨['d','a','m','p','s','{','t','r','a','t','e','g','y','}'], .dampstrategy, .oct⟩,
   ⟨['f','l','o','o','r'], .floor, .num true⟩,
   ⟨['v','f','l','o','o','r'], .vfloor, .num true⟩,
   ⟨['r','o','u','n','d','o','f','f','t','o','l'], .roundofftol, .num true⟩,
   ⟨['t','{','e','m','p','a','m','b','}'], .temp_c, .num false⟩,
   ⟨['t','{','e','m','p','e','r','a','t','u','r','e','}'], .temp_c, .num false⟩,
   ⟨['s','h','o','r','t'], .shortckt, .num true⟩,
   ⟨['o','u','t','{','w','i','d','t','h','}'], .outwidth, .uns⟩,
   ⟨['y','d','i','v','{','i','s','i','o','n','s','}'], .ydivisions, .num true⟩,
   ⟨['n','a','g'], .picky, .set (0)⟩,
   ⟨['n','o','n','a','g'], .picky, .set (1)⟩,
   ⟨['t','r','a','c','e'], .picky, .set (1)⟩,
   ⟨['n','o','t','r','a','c','e'], .picky, .set (2)⟩,
   ⟨['l','o','g'], .picky, .set (2)⟩,
   ⟨['n','o','l','o','g'], .picky, .set (3)⟩,
   ⟨['d','e','b','u','g'], .picky, .set (3)⟩,
   ⟨['n','o','d','e','b','u','g'], .picky, .set (4)⟩,
   ⟨['p','i','c','k','y'], .picky, .set (4)⟩,
   ⟨['n','o','p','i','c','k','y'], .picky, .set (5)⟩,
   ⟨['w','a','r','n','{','i','n','g','}'], .picky, .set (5)⟩,
   ⟨['n','o','w','a','r','n'], .picky, .set (6)⟩,
   ⟨['p','h','a','s','e'], .phase, .enm [(['d','{','e','g','r','e','e','s','}'], 0), (['+','d','{','e','g','r','e','e','s','}'], 2), (['-','d','{','e','g','r','e','e','s','}'], 3), (['r','{','a','d','i','a','n','s','}'], 1)]⟩,
   ⟨['o','r','d','e','r'], .order, .enm [(['r','{','e','v','e','r','s','e','}'], 1), (['f','{','o','r','w','a','r','d','}'], 2), (['a','{','u','t','o','}'], 3)]⟩,
   ⟨['m','o','d','e'], .mode, .enm [(['a','{','n','a','l','o','g','}'], 1), (['d','{','i','g','i','t','a','l','}'], 2), (['m','{','i','x','e','d','}'], 3)]⟩,
   ⟨['t','r','{','a','n','s','i','t','s','}'], .transits, .int⟩,
   ⟨['d','u','p','{','c','h','e','c','k','}'], .dupcheck, .flag⟩,
   ⟨['b','y','p','{','a','s','s','}'], .bypass, .flag⟩,
   ⟨['i','n','c','{','m','o','d','e','}'], .incmode, .flag⟩,
   ⟨['l','c','b','{','y','p','a','s','s','}'], .lcbypass, .flag⟩,
   ⟨['l','u','b','{','y','p','a','s','s','}'], .lubypass, .flag⟩,
   ⟨['f','b','b','{','y','p','a','s','s','}'], .fbbypass, .flag⟩,
   ⟨['t','r','a','c','e','l','{','o','a','d','}'], .traceload, .flag⟩,
   ⟨['i','t','e','r','m','i','n'], .itermin, .int⟩,
   ⟨['v','m','a','x'], .vmax, .num false⟩,
   ⟨['v','m','i','n'], .vmin, .num false⟩,
   ⟨['m','r','t'], .dtmin, .num true⟩,
   ⟨['d','t','m','i','n'], .dtmin, .num true⟩,
   ⟨['d','t','r','{','a','t','i','o','}'], .dtratio, .num true⟩,
   ⟨['r','s','t','r','a','y'], .rstray, .flag⟩,
   ⟨['c','s','t','r','a','y'], .cstray, .flag⟩,
   ⟨['h','a','r','m','o','n','i','c','s'], .harmonics, .int⟩,
   ⟨['t','r','s','t','e','p','g','r','o','w'], .trstepgrow, .num true⟩,
   ⟨['t','r','s','t','e','p','h','o','l','d'], .trstephold, .num true⟩,
   ⟨['t','r','s','t','e','p','s','h','r','i','n','k'], .trstepshrink, .num true⟩,
   ⟨['t','r','r','e','j','e','c','t'], .trreject, .num true⟩,
   ⟨['t','r','s','t','e','p','o','r','d','e','r'], .trsteporder, .range⟩,
   ⟨['t','r','s','t','e','p','c','o','e','f','1'], .trstepcoef1, .num false⟩,
   ⟨['t','r','s','t','e','p','c','o','e','f','2'], .trstepcoef2, .num false⟩,
   ⟨['t','r','s','t','e','p','c','o','e','f','3'], .trstepcoef3, .num false⟩,
   ⟨['s','h','o','w','a','l','l'], .showall, .flag⟩,
   ⟨['f','o','o','o','o'], .foooo, .int⟩,
   ⟨['d','i','o','d','e','{','f','l','a','g','s','}'], .diodeflags, .oct⟩,
   ⟨['m','o','s','{','f','l','a','g','s','}'], .mosflags, .oct⟩,
   ⟨['q','u','i','t','c','o','n','v','{','f','a','i','l','}'], .quitconvfail, .flag⟩,
   ⟨['e','d','i','t'], .edit, .flag⟩,
   ⟨['r','e','c','u','r','{','s','i','o','n','}'], .recursion, .int⟩,
   ⟨['l','a','n','g','{','u','a','g','e','}'], .language, .lang⟩,
   ⟨['i','n','s','e','n','s','i','t','i','v','e'], .insensitive, .flag⟩,
   ⟨['u','n','i','t','s'], .units, .enm [(['s','i'], 0), (['s','p','i','c','e'], 1)]⟩,
   ⟨['i','t','l','1'], .itl1, .int⟩,
   ⟨['i','t','l','2'], .itl2, .int⟩,
   ⟨['i','t','l','3'], .itl3, .int⟩,
   ⟨['i','t','l','4'], .itl4, .int⟩,
   ⟨['i','t','l','5'], .itl5, .int⟩,
   ⟨['i','t','l','6'], .itl6, .int⟩,
   ⟨['i','t','l','7'], .itl7, .int⟩,
   ⟨['i','t','l','8'], .itl8, .int⟩]

/-- what trying something comes to: done; not done, with the cursor perhaps moved; undefined behaviour -/
inductive Out where
  | yes (o : Opts) (rest : List Char)
  | no (rest : List Char)
  | ub

/-- `Set` of the first that matches (ap.h:193-202) -/
def choose (ci : Bool) (s : List Char) : List (List Char × ℤ) → Option (ℤ × List Char)
  | [] => none
  | (k, v) :: l =>
    match umatch ci (k ++ [' ']) s with
    | .ok r => some (v, r)
    | _ => choose ci s l

/-- the words of `ctob` (ap_convert.cc:149-157) -/
def boolWords : List (List Char × ℤ) :=
  [(['1'], 1), (['0'], 0), (['t', '{', 'r', 'u', 'e', '}'], 1), (['f', '{', 'a', 'l', 's', 'e', '}'], 0), (['y', '{', 'e', 's', '}'], 1),
   (['n', '{', 'o', '}'], 0), (['#', 't', '{', 'r', 'u', 'e', '}'], 1), (['#', 'f', '{', 'a', 'l', 's', 'e', '}'], 0)]

/-- `CS::ctob` (ap_convert.cc:144-162) -/
def ctob (ci : Bool) (s : List Char) : Bool × List Char :=
  match choose ci (skipbl s) boolWords with
  | some (v, r) => (v != 0, skipcom r)
  | none => (true, skipcom (skipbl s))

/-- the loop of `ctoo` (ap_convert.cc:221-223); `none`: `int` overflow -/
def octDigits (val : ℕ) : List Char → Option (ℕ × List Char)
  | [] => some (val, [])
  | c :: r => if isDigit c then (if intMax < 8 * val + digitVal c then none else octDigits (8 * val + digitVal c) r) else some (val, c :: r)

/-- `CS::ctoo` (ap_convert.cc:215-227) -/
def ctoo (s : List Char) : Option (ℤ × List Char) := (octDigits 0 (skipbl s)).map fun (v, r) => ((v : ℤ), skipcom r)

/-- the value of `ctof`, 0 if there is none (ap_convert.cc:268-271) -/
def number (u : Units) (s : List Char) : Option (ℚ × List Char) :=
  match ctof u s with
  | .num v r => some (v, r)
  | .none r => some (0, r)
  | .ub => none

/-- `int(x)`: cut off; `none` if an `int` cannot hold it -/
def toInt (x : ℚ) : Option ℤ :=
  let z := if x < 0 then ⌈x⌉ else ⌊x⌋
  if -(intMax : ℤ) - 1 ≤ z ∧ z ≤ intMax then some z else none

/-- `to_range` (l_compar.h:40-46) -/
def toRange (lo x hi : ℤ) : ℤ := min (max lo x) hi

/-- `notstd::to_lower` -/
def lower (w : List Char) : List Char := w.map Char.toLower

/-- `language_dispatcher[cmd]` (l_dispatcher.h:87-114) -/
def findLang (langs : List Lang) (ci : Bool) (s : List Char) : Option (Lang × List Char) :=
  match langs.find? (fun l => l.name == (Spice.word s).1) with
  | some l => some (l, (Spice.word s).2)
  | none =>
    if ci then (langs.find? (fun l => l.name == lower (Spice.word s).1)).map fun l => (l, (Spice.word s).2)
    else none

/-- a language was asked for, found or not (u_opt2.cc:168-170) -/
def Opts.setLang (o : Opts) (l : Option Lang) : Opts :=
  { (o.setFlag .insensitive (match l with | some l => l.ci | none => false)).setInt .units (match l with | some l => l.units | none => 0)
    with lang := l }

/-- what is done with the text behind the name -/
def take (langs : List Lang) (o : Opts) (v : Var) (k : Kind) (s : List Char) : Out :=
  match k with
  | .flag =>
    if (Spice.skip1b ['='] s).1 then
      let b := ctob o.ci (Spice.skip1b ['='] s).2
      .yes (o.setFlag v b.1) b.2
    else .yes (o.setFlag v true) (Spice.skip1b ['='] s).2
  | .num positive =>
    match number o.units s with
    | some (x, r) => .yes (o.setNum v (if positive then |x| else x)) r
    | none => .ub
  | .int =>
    match number o.units s with
    | some (x, r) => match toInt x with
      | some z => .yes (o.setInt v z) r
      | none => .ub
    | none => .ub
  | .range =>
    match number o.units s with
    | some (x, r) => match toInt x with
      | some z => .yes (o.setInt v (toRange 1 z 3)) r
      | none => .ub
    | none => .ub
  | .oct =>
    match ctoo s with
    | some (z, r) => .yes (o.setInt v z) r
    | none => .ub
  | .uns => .yes (o.setInt v ((ctou s).1 : ℤ)) (ctou s).2.2
  | .set z => .yes (o.setInt v z) s
  | .enm choices =>
    match choose o.ci s choices with
    | some (z, r) => .yes (o.setInt v z) r
    | none => .no s
  | .lang =>
    match findLang langs o.ci s with
    | some (l, r) => .yes (o.setLang (some l)) r
    | none => .yes (o.setLang o.lang) s

/-- the pattern of the name -/
def Entry.pattern (e : Entry) : List Char :=
  match e.kind with
  | .flag => e.key ++ [' ']
  | .set _ => e.key ++ [' ']
  | _ => e.key ++ [' ', '{', '=', '}']

/-- one of the alternatives -/
def tryEntry (langs : List Lang) (o : Opts) (e : Entry) (s : List Char) : Out :=
  match umatch o.ci e.pattern s with
  | .ok r => take langs o e.var e.kind r
  | .ub => .ub
  | .fail =>
    match e.kind with
    | .flag =>
      match umatch o.ci (['n', 'o'] ++ e.key) s with
      | .ok r => .yes (o.setFlag e.var false) r
      | .fail => .no s
      | .ub => .ub
    | _ => .no s

/-- `ONE_OF || ... || ...` -/
def tryAll (langs : List Lang) (o : Opts) : List Entry → List Char → Out
  | [], s => .no s
  | e :: l, s =>
    match tryEntry langs o e s with
    | .no s => tryAll langs o l s
    | x => x

/-- `CS::check` (ap_error.cc:37-48); `none`: the cursor goes behind the end of the text, where `peek` reads next -/
def check (ci : Bool) (s : List Char) : Option (List Char) :=
  match skipbl s with
  | '/' :: r =>
    match umatch ci ['/', '/'] ('/' :: r) with
    | .ok [] => none
    | .ok (_ :: t) => some t
    | _ => some r
  | ';' :: r => some r
  | '\'' :: r => some r
  | r => some r

/-- characters of a word to be skipped: letters, those of numbers, `is_argsym` (ap.h:117) -/
def isArg (c : Char) : Bool := isAlpha c || isFloat c || ['*', '?', '$', '%', '_', '&', '@'].contains c

/-- `CS::skiparg` (ap_skip.cc:96-113) -/
def skiparg (s : List Char) : List Char :=
  match skipbl s with
  | [] => []
  | ',' :: r => skipbl r
  | _ :: r => skipcom (r.dropWhile isArg)

/-- once through the loop (u_opt2.cc:62-185) -/
def round (langs : List Lang) (o : Opts) (s : List Char) : Out :=
  match tryAll langs o table s with
  | .yes o r => .yes o r
  | .ub => .ub
  | .no r =>
    match check o.ci r with
    | some r => .yes o (skiparg r)
    | none => .ub

/-- how a command ends -/
inductive End where
  | done (o : Opts) (changed : Bool)
  | ub
  | running                 -- it does not

/-- after the loop (u_opt2.cc:200-205) -/
def finish (o : Opts) (changed : Bool) : Opts :=
  if changed then
    { o.setInt .numdgt (toRange 3 (o.int .numdgt) 20) with lowlim := 1 - o.num .reltol, uplim := 1 + o.num .reltol }
  else o

/-- the loop (u_opt2.cc:60-190); the first argument limits the rounds -/
def loop (langs : List Lang) : ℕ → Opts → Bool → List Char → End
  | 0, _, _, _ => .running
  | n + 1, o, changed, s =>
    match round langs o s with
    | .ub => .ub
    | .no _ => .ub           -- does not occur
    | .yes o' r =>
      let changed := changed || decide (r.length < s.length)
      if skipbl r ≠ [] ∧ changed = true then loop langs n o' changed (skipbl r) else .done (finish o' changed) changed

/-- `OPT::set_values` (u_opt2.cc:55-206) -/
def setValues (langs : List Lang) (n : ℕ) (o : Opts) (s : List Char) : End := loop langs n o false s

/-! ## Printing -/

/-- `%d` -/
def decText (z : ℤ) : List Char := (if z < 0 then ['-'] else []) ++ Nat.toDigits 10 z.natAbs
/-- `%o` of an `int` (io_out.cc:47-52) -/
def octText (z : ℤ) : List Char := Nat.toDigits 8 (if z < 0 then (2 ^ 32 + z).toNat else z.toNat)

/-- one thing that is printed -/
inductive Item where
  | flag (name : List Char) (v : Var)        -- `name` or `noname`
  | num (name : List Char) (v : Var)         -- `name=`, a number
  | int (name : List Char) (v : Var)         -- `name=`, `%d`
  | uns (name : List Char) (v : Var)         -- `name=`, `%u`
  | oct (name : List Char) (v : Var)         -- `name=`, `%o`
  | octNZ (name : List Char) (v : Var)       -- the same unless 0
  | enm (name : List Char) (v : Var) (names : List (List Char))    -- `name=`, the name with that number
  | lang (name : List Char)

/-- u_opt.h:45-46 -/
def methodNames : List (List Char) := [['u', 'n', 'k', 'n', 'o', 'w', 'n'], ['e', 'u', 'l', 'e', 'r'], ['e', 'u', 'l', 'e', 'r', 'o', 'n', 'l', 'y'], ['t', 'r', 'a', 'p'], ['t', 'r', 'a', 'p', 'o', 'n', 'l', 'y'], ['g', 'e', 'a', 'r', '2'], ['g', 'e', 'a', 'r', '2', 'o', 'n', 'l', 'y'], ['t', 'r', 'a', 'p', 'g', 'e', 'a', 'r'], ['t', 'r', 'a', 'p', 'e', 'u', 'l', 'e', 'r']]
/-- u_opt.h:52 -/
def orderNames : List (List Char) := [[], ['r', 'e', 'v', 'e', 'r', 's', 'e'], ['f', 'o', 'r', 'w', 'a', 'r', 'd'], ['a', 'u', 't', 'o']]
/-- u_opt.h:58 -/
def phaseNames : List (List Char) := [['d', 'e', 'g', 'r', 'e', 'e', 's'], ['r', 'a', 'd', 'i', 'a', 'n', 's'], ['+', 'd', 'e', 'g', 'r', 'e', 'e', 's'], ['-', 'd', 'e', 'g', 'r', 'e', 'e', 's']]
/-- u_opt.h:64 -/
def unitsNames : List (List Char) := [['s', 'i'], ['s', 'p', 'i', 'c', 'e']]
/-- mode.h:31 -/
def modeNames : List (List Char) := [['u', 'n', 'k', 'n', 'o', 'w', 'n'], ['a', 'n', 'a', 'l', 'o', 'g'], ['d', 'i', 'g', 'i', 't', 'a', 'l'], ['m', 'i', 'x', 'e', 'd']]

/-- u_opt2.cc:216-228 -/
def ioLine : List Item := [
  .flag ['a', 'c', 'c', 't'] .acct,
  .flag ['l', 'i', 's', 't'] .listing,
  .flag ['c', 'l', 'o', 'b', 'b', 'e', 'r'] .clobber,
  .uns ['o', 'u', 't'] .outwidth,
  .num ['y', 'd', 'i', 'v', 'i', 's', 'i', 'o', 'n', 's'] .ydivisions,
  .enm ['p', 'h', 'a', 's', 'e'] .phase phaseNames,
  .int ['h', 'a', 'r', 'm', 'o', 'n', 'i', 'c', 's'] .harmonics,
  .flag ['e', 'd', 'i', 't'] .edit,
  .lang ['l', 'a', 'n', 'g', 'u', 'a', 'g', 'e'],
  .flag ['i', 'n', 's', 'e', 'n', 's', 'i', 't', 'i', 'v', 'e'] .insensitive,
  .enm ['u', 'n', 'i', 't', 's'] .units unitsNames,
  .int ['r', 'e', 'c', 'u', 'r', 's', 'i', 'o', 'n'] .recursion]

/-- u_opt2.cc:232-236 -/
def digitsLine : List Item := [
  .int ['n', 'u', 'm', 'd', 'g', 't'] .numdgt,
  .num ['f', 'l', 'o', 'o', 'r'] .floor,
  .num ['v', 'f', 'l', 'o', 'o', 'r'] .vfloor,
  .num ['r', 'o', 'u', 'n', 'd', 'o', 'f', 'f', 't', 'o', 'l'] .roundofftol]

/-- u_opt2.cc:240-250 -/
def tolerancesLine : List Item := [
  .num ['g', 'm', 'i', 'n'] .gmin,
  .num ['s', 'h', 'o', 'r', 't'] .shortckt,
  .num ['r', 'e', 'l', 't', 'o', 'l'] .reltol,
  .num ['a', 'b', 's', 't', 'o', 'l'] .abstol,
  .num ['v', 'n', 't', 'o', 'l'] .vntol,
  .num ['t', 'r', 't', 'o', 'l'] .trtol,
  .num ['c', 'h', 'g', 't', 'o', 'l'] .chgtol,
  .num ['p', 'i', 'v', 't', 'o', 'l'] .pivtol,
  .num ['b', 'y', 'p', 'a', 's', 's', 't', 'o', 'l'] .bypasstol,
  .num ['l', 'o', 'a', 'd', 't', 'o', 'l'] .loadtol]

/-- u_opt2.cc:254-265 -/
def algorithmsLine : List Item := [
  .enm ['m', 'e', 't', 'h', 'o', 'd'] .method methodNames,
  .flag ['b', 'y', 'p', 'a', 's', 's'] .bypass,
  .flag ['i', 'n', 'c', 'm', 'o', 'd', 'e'] .incmode,
  .flag ['l', 'c', 'b', 'y', 'p', 'a', 's', 's'] .lcbypass,
  .flag ['l', 'u', 'b', 'y', 'p', 'a', 's', 's'] .lubypass,
  .flag ['f', 'b', 'b', 'y', 'p', 'a', 's', 's'] .fbbypass,
  .flag ['t', 'r', 'a', 'c', 'e', 'l', 'o', 'a', 'd'] .traceload,
  .enm ['o', 'r', 'd', 'e', 'r'] .order orderNames,
  .enm ['m', 'o', 'd', 'e'] .mode modeNames,
  .int ['t', 'r', 'a', 'n', 's', 'i', 't', 's'] .transits,
  .flag ['q', 'u', 'i', 't', 'c', 'o', 'n', 'v', 'f', 'a', 'i', 'l'] .quitconvfail]

/-- u_opt2.cc:269-278 -/
def heuristicsLine : List Item := [
  .int ['i', 't', 'l', '@', '1'] .itl1,
  .int ['i', 't', 'l', '@', '2'] .itl2,
  .int ['i', 't', 'l', '@', '3'] .itl3,
  .int ['i', 't', 'l', '@', '4'] .itl4,
  .int ['i', 't', 'l', '@', '5'] .itl5,
  .int ['i', 't', 'l', '@', '6'] .itl6,
  .int ['i', 't', 'l', '@', '7'] .itl7,
  .int ['i', 't', 'l', '@', '8'] .itl8,
  .int ['i', 't', 'e', 'r', 'm', 'i', 'n'] .itermin,
  .num ['v', 'm', 'a', 'x'] .vmax,
  .num ['v', 'm', 'i', 'n'] .vmin,
  .num ['d', 'a', 'm', 'p', 'm', 'a', 'x'] .dampmax,
  .num ['d', 'a', 'm', 'p', 'm', 'i', 'n'] .dampmin,
  .oct ['d', 'a', 'm', 'p', 's', 't', 'r', 'a', 't', 'e', 'g', 'y'] .dampstrategy]

/-- u_opt2.cc:282-292 -/
def stepsLine : List Item := [
  .num ['d', 't', 'm', 'i', 'n'] .dtmin,
  .num ['d', 't', 'r', 'a', 't', 'i', 'o'] .dtratio,
  .num ['t', 'r', 's', 't', 'e', 'p', 'g', 'r', 'o', 'w'] .trstepgrow,
  .num ['t', 'r', 's', 't', 'e', 'p', 'h', 'o', 'l', 'd'] .trstephold,
  .num ['t', 'r', 's', 't', 'e', 'p', 's', 'h', 'r', 'i', 'n', 'k'] .trstepshrink,
  .num ['t', 'r', 'r', 'e', 'j', 'e', 'c', 't'] .trreject,
  .int ['t', 'r', 's', 't', 'e', 'p', 'o', 'r', 'd', 'e', 'r'] .trsteporder,
  .num ['t', 'r', 's', 't', 'e', 'p', 'c', 'o', 'e', 'f', '1'] .trstepcoef1,
  .num ['t', 'r', 's', 't', 'e', 'p', 'c', 'o', 'e', 'f', '2'] .trstepcoef2,
  .num ['t', 'r', 's', 't', 'e', 'p', 'c', 'o', 'e', 'f', '3'] .trstepcoef3]

/-- u_opt2.cc:296-310 -/
def environmentLine : List Item := [
  .num ['t', 'n', 'o', 'm'] .tnom_c,
  .num ['t', 'e', 'm', 'p', 'e', 'r', 'a', 't', 'u', 'r', 'e'] .temp_c,
  .flag ['r', 's', 't', 'r', 'a', 'y'] .rstray,
  .flag ['c', 's', 't', 'r', 'a', 'y'] .cstray,
  .num ['d', 'e', 'f', 'l'] .defl,
  .num ['d', 'e', 'f', 'w'] .defw,
  .num ['d', 'e', 'f', 'a', 'd'] .defad,
  .num ['d', 'e', 'f', 'a', 's'] .defas,
  .octNZ ['d', 'i', 'o', 'd', 'e', 'f', 'l', 'a', 'g', 's'] .diodeflags,
  .octNZ ['m', 'o', 's', 'f', 'l', 'a', 'g', 's'] .mosflags]

/-- the lines of options, in order -/
def allLines : List (List Item) := [ioLine, digitsLine, tolerancesLine, algorithmsLine, heuristicsLine, stepsLine, environmentLine]

/-- the text of one item; `sh` is how a `double` is printed.  `none`: a name is read outside of its array. -/
def Item.text (sh : ℚ → List Char) (o : Opts) : Item → Option (List Char)
  | .flag n v => some ([' ', ' '] ++ (if o.flag v then n else ['n', 'o'] ++ n))
  | .num n v => some ([' ', ' '] ++ n ++ '=' :: sh (o.num v))
  | .int n v => some ([' ', ' '] ++ n ++ '=' :: decText (o.int v))
  | .uns n v => some ([' ', ' '] ++ n ++ '=' :: decText (o.int v))
  | .oct n v => some ([' ', ' '] ++ n ++ '=' :: octText (o.int v))
  | .octNZ n v => some (if o.int v ≠ 0 then [' ', ' '] ++ n ++ '=' :: octText (o.int v) else [])
  | .enm n v names =>
    if o.int v < 0 then none else (names[(o.int v).toNat]?).map fun t => [' ', ' '] ++ n ++ '=' :: t
  | .lang n => some ([' ', ' '] ++ n ++ '=' :: (match o.lang with | some l => l.name | none => ['n', 'o', 'n', 'e']))

/-- a line behind `.options` -/
def lineText (sh : ℚ → List Char) (o : Opts) : List Item → Option (List Char)
  | [] => some []
  | i :: l => (i.text sh o).bind fun a => (lineText sh o l).map fun b => a ++ b

/-- `OPT::print` (u_opt2.cc:211-326): what stands behind `.options` on each line -/
def printOpts (sh : ℚ → List Char) (o : Opts) : Option (List (List Char)) := allLines.mapM (lineText sh o)

/-- the lines as commands, one after the other; blanks behind the name of the command are skipped with it (c__cmd.cc:64) -/
def readLines (langs : List Lang) (n : ℕ) (o : Opts) : List (List Char) → End
  | [] => .done o false
  | t :: l =>
    match setValues langs n o (skipcom t) with
    | .done o c => if l = [] then .done o c else readLines langs n o l
    | x => x

/-- as it starts (u_opt1.cc:28-120) -/
def initial : Opts where
  flag v := match v with
    | .mod | .clobber | .bypass | .incmode | .lcbypass | .lubypass | .fbbypass | .traceload | .rstray | .cstray | .edit => true
    | _ => false
  num v := match v with
    | .gmin => 1 / 10 ^ 12 | .bypasstol => 1 / 10 | .loadtol => 1 / 10 | .reltol => 1 / 1000 | .abstol => 1 / 10 ^ 12
    | .vntol => 1 / 10 ^ 6 | .trtol => 7 | .chgtol => 1 / 10 ^ 14 | .pivtol => 1 / 10 ^ 13 | .pivrel => 1 / 1000 | .tnom_c => 27
    | .defl => 1 / 10 ^ 4 | .defw => 1 / 10 ^ 4 | .dampmax => 1 | .dampmin => 1 / 2 | .floor => 1 / 10 ^ 21 | .vfloor => 1 / 10 ^ 15
    | .roundofftol => 1 / 10 ^ 13 | .temp_c => 27 | .shortckt => 1 / 10 ^ 5 | .ydivisions => 4 | .vmax => 5 | .vmin => -5
    | .dtmin => 1 / 10 ^ 12 | .dtratio => 10 ^ 9 | .trstepgrow => 10 ^ 99 | .trstephold => 10 ^ 99 | .trstepshrink => 2
    | .trreject => 1 / 2 | .trstepcoef1 => 1 / 4 | .trstepcoef2 => 1 / 24 | .trstepcoef3 => 1 / 192
    | _ => 0
  int v := match v with
    | .numdgt => 5 | .cptime => 30000 | .limtim => 2 | .limpts => 201 | .lvlcod => 2 | .lvltim => 2 | .method => 3 | .maxord => 2
    | .picky => 4 | .outwidth => 9999 | .order => 3 | .mode => 3 | .transits => 2 | .itermin => 1 | .harmonics => 9
    | .trsteporder => 3 | .recursion => 20 | .itl1 => 100 | .itl2 => 50 | .itl3 => 6 | .itl4 => 20 | .itl6 => 5000 | .itl7 => 1
    | .itl8 => 99
    | _ => 0
  lang := none
  lowlim := 1 - 1 / 1000
  uplim := 1 + 1 / 1000

end Gnucap.Opt
