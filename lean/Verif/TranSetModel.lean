import Mathlib.Algebra.Order.Field.Basic
import Mathlib.Algebra.Order.Field.Rat

/-!
# Arguments of the transient command (model of apps/s_tr_set.cc)

`ni` is `NOT_INPUT` (constant.h:99), `big` is `BIGBIG`.  Arguments are numbers already (evaluation of expressions: C38-C42).
-/
namespace Gnucap.TranSet
variable {F : Type _} [Field F] [LinearOrder F] [IsStrictOrderedRing F]

/-- `PARAMETER<double>` (include/u_parameter.h:97-184): a value, and whether it was given ("hard", `_s != ""`) or is a default -/
structure Par (F : Type _) where
  v : F
  hard : Bool

/-- `e_val(def)` (include/u_parameter.h:560-598) for a number -/
def Par.eval (p : Par F) (d : F) : Par F := if p.hard then p else ⟨d, false⟩

def Par.set (x : F) : Par F := ⟨x, true⟩

/-- what stays from one transient command to the next (include/s_tr.h), and the simulator's `_last_time` -/
structure St (F : Type _) where
  start : Par F
  stop : Par F
  strobe : Par F
  dtmaxIn : Par F
  dtminIn : Par F
  dtratioIn : Par F
  skipIn : Par F
  last : F

/-- the options of a command (s_tr_set.cc:181-221): those that change the times -/
structure Opts (F : Type _) where
  start : Option F := none
  stop : Option F := none
  strobe : Option F := none
  dtmax : Option F := none
  dtmin : Option F := none
  dtratio : Option F := none
  skip : Option F := none
  cold : Bool := false

/-- the result: the run -/
structure Run (F : Type _) where
  start : F
  stop : F
  strobe : F
  dtmax : F
  dtmin : F
  cont : Bool
  time1 : F

/-- the interpretation of the numeric arguments (s_tr_set.cc:48-125); the fourth number, `_dtmax_in`, s_tr_set.cc:126-129 -/
def args (s : St F) : List F → St F
  | a1 :: a2 :: a3 :: rest =>
    let s := if a3 = 0 then { s with start := .set a3, stop := .set a2, strobe := .set a1 }
      else if a1 = 0 then { s with start := .set a1, stop := .set a2, strobe := .set a3 }
      else if a1 > a3 then { s with start := .set a1, stop := .set a2, strobe := .set a3 }
      else { s with start := .set a3, stop := .set a2, strobe := .set a1 }
    match rest with
    | [] => s
    | d :: _ => { s with dtmaxIn := .set d }
  | [a1, a2] =>
    if a1 = 0 then { s with start := .set a1, stop := .set a2 }
    else if a1 ≥ a2 then { s with start := .set s.last, stop := .set a1, strobe := .set a2 }
    else { s with start := ⟨s.start.v, false⟩, stop := .set a2, strobe := .set a1 }
  | [a1] =>
    if a1 > s.last then { s with start := .set s.last, stop := .set a1 }
    else if a1 = 0 then { s with start := .set 0, stop := .set (s.stop.v - s.start.v) }
    else { s with start := .set s.last, stop := .set (s.last + (s.stop.v - s.start.v)), strobe := .set a1 }
  | [] => { s with start := .set s.last, stop := .set (s.last + (s.stop.v - s.start.v)) }

def over (p : Par F) : Option F → Par F
  | none => p
  | some x => .set x

/-- default values of the options -/
structure Cfg (F : Type _) where
  ni : F
  big : F
  dtmin : F
  dtratio : F

/-- `TRANSIENT::options` (s_tr_set.cc:175-227), as far as times are concerned -/
def options (c : Cfg F) (o : Opts F) (s : St F) : St F :=
  { s with
    start := over s.start o.start, stop := over s.stop o.stop, strobe := over s.strobe o.strobe,
    dtmaxIn := (over s.dtmaxIn o.dtmax).eval c.big, dtminIn := (over s.dtminIn o.dtmin).eval c.dtmin,
    dtratioIn := (over s.dtratioIn o.dtratio).eval c.dtratio, skipIn := (over s.skipIn o.skip).eval 1 }

/-- the first part of `TRANSIENT::setup` (s_tr_set.cc:38-46): the defaults -/
def prepare (c : Cfg F) (first : Bool) (s : St F) : St F :=
  { s with
    start := s.start.eval c.ni, stop := s.stop.eval c.ni, strobe := s.strobe.eval c.ni,
    last := if first then 0 else s.last }

/-- the last part (s_tr_set.cc:132-172); `none`: "transient: bad time args" -/
def finish (c : Cfg F) (cold : Bool) (s : St F) : St F × Option (Run F) :=
  let s := { s with start := s.start.eval 0, stop := s.stop.eval c.ni }
  if s.start.v < 0 ∨ s.stop.v ≤ s.start.v then (s, none)
  else
    let b := s.strobe.eval c.ni
    let b := if b.v ≤ 0 then ⟨c.ni, false⟩ else b
    let b := b.eval (s.stop.v - s.start.v)
    let s := { s with strobe := b }
    let fresh : Bool := cold || decide (s.start.v < s.last) || decide (s.last ≤ 0)
    let dtmax := if s.dtmaxIn.hard then s.dtmaxIn.v
      else if s.skipIn.hard then b.v / s.skipIn.v
      else min s.dtmaxIn.v b.v
    let dtmin := if s.dtminIn.hard then s.dtminIn.v
      else if s.dtratioIn.hard then dtmax / s.dtratioIn.v
      else max s.dtminIn.v (dtmax / s.dtratioIn.v)
    (s, some ⟨s.start.v, s.stop.v, b.v, dtmax, dtmin, !fresh, if fresh then 0 else s.last⟩)

/-- `TRANSIENT::setup` (s_tr_set.cc:36-172) -/
def setup (c : Cfg F) (first : Bool) (l : List F) (o : Opts F) (s : St F) : St F × Option (Run F) :=
  finish c o.cold (options c o (args (prepare c first s) l))

/-- before the first command: nothing given -/
def St.new (c : Cfg F) : St F :=
  ⟨⟨c.ni, false⟩, ⟨c.ni, false⟩, ⟨c.ni, false⟩, ⟨c.ni, false⟩, ⟨c.ni, false⟩, ⟨c.ni, false⟩, ⟨c.ni, false⟩, 0⟩

end Gnucap.TranSet
