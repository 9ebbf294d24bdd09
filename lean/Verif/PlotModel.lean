import Verif.NumModel
import Verif.OutModel
import Mathlib.Data.Rat.Floor

/-!
# Plots made of characters (C81)

Models plot.cc.  Numbers are exact; `none` is an access outside an array or an integer that does not fit.  Left out: when plots are opened
and closed (`active`, `plopen`, `plclose`).
-/
namespace Gnucap.Plot
open Gnucap.Num Gnucap.Out

/-- `MAXWIDTH`, `INDENT` (plot.cc:22, 24) -/
def maxWidth : ℕ := 512
def indent : ℕ := 8

/-- `static_cast<int>(OPT::outwidth)` (plot.cc:23) -/
def asInt (o : ℕ) : ℤ := if o < 2 ^ 31 then o else (o : ℤ) - 2 ^ 32

/-- `OUTWIDTH` (plot.cc:23) -/
def outWidth (o : ℕ) : ℤ := min (asInt o) maxWidth

/-- `CONSSCALE` (plot.cc:25) -/
def consScale (o : ℕ) : ℤ := outWidth o - indent - 2

/-- `floor(x+.5)` (plot.cc:162-165) -/
def rnd (x : ℚ) : ℤ := ⌊x + 1 / 2⌋

/-- `static_cast<int>` -/
def castInt (z : ℤ) : Option ℤ := if -2 ^ 31 ≤ z ∧ z < 2 ^ 31 then some z else none

/-- `a[i] = c` -/
def poke (a : List Char) (i : ℤ) (c : Char) : Option (List Char) :=
  if 0 ≤ i ∧ i < a.length then some (a.set i.toNat c) else none

/-- many of them -/
def pokes (c : Char) (a : List Char) : List ℤ → Option (List Char)
  | [] => some a
  | i :: l => (poke a i c).bind fun a => pokes c a l

/-- the text up to its end -/
def cstr (a : List Char) : List Char := a.takeWhile (· ≠ nul)

/-- the places of the marks (plot.cc:183-186), as many rounds -/
def ticks (incr s : ℚ) : ℕ → ℚ → List ℤ
  | 0, _ => []
  | n + 1, place => if place < s then rnd place :: ticks incr s n (place + incr) else []

/-- all of them (plot.cc:182-186); with no divisions the step is infinite -/
def ticksOf (s : ℤ) (ydiv : ℚ) : List ℤ :=
  if ydiv = 0 then (if 0 < s then [0] else []) else ticks (s / ydiv) s (⌈ydiv⌉₊ + 1) 0

/-- the strings `border` and `emptydata` (plot.cc:178-193), from what is in the arrays before -/
def build (s : ℤ) (ydiv : ℚ) (border empty : List Char) : Option (List Char × List Char) :=
  let js := (List.range s.toNat).map (fun (i : ℕ) => (i : ℤ))
  (pokes '-' border js).bind fun border => (pokes ' ' empty js).bind fun empty =>
  (pokes '+' border (ticksOf s ydiv)).bind fun border => (pokes '.' empty (ticksOf s ydiv)).bind fun empty =>
  (poke border s '+').bind fun border => (poke border (s + 1) nul).bind fun border =>
  (poke empty 0 '|').bind fun empty => (poke empty s '|').bind fun empty => (poke empty (s + 1) nul).map fun empty => (border, empty)

/-- `point` (plot.cc:200-223), linear, no offset -/
def point (y lo hi : ℚ) (scale : ℤ) : Option ℤ :=
  (castInt (rnd (scale * (y - lo) / (hi - lo)))).map fun place =>
    let place := if place < 0 then 0 else place
    if scale < place then scale else place

/-- the limits of a probe (plot.cc:44-50, 126-132) -/
def limits (lo hi : ℚ) : ℚ × ℚ := if hi - lo ≠ 0 then (lo, hi) else (-5, 5)

/-- a probe: its value and limits -/
structure Prb where
  val : ℚ
  lo : ℚ
  hi : ℚ

/-- `"%-8.8s"` (plot.cc:247) -/
def cut8 (s : List Char) : List Char := s.take 8 ++ List.replicate (8 - s.length) ' '

/-- `plotarg` (plot.cc:228-249): the text; `empty` the array `emptydata` -/
def plotarg (o : ℕ) (fmt : Fmt) (empty : List Char) (xx : ℚ) (y : Prb) (z : Option Prb) : Option (List Char) :=
  (match z with
   | none => some empty
   | some z => (point z.val (limits z.lo z.hi).1 (limits z.lo z.hi).2 (consScale o)).bind fun p => poke empty p '+').bind fun a =>
  (point y.val (limits y.lo y.hi).1 (limits y.lo y.hi).2 (consScale o)).bind fun p => (poke a p '*').bind fun a =>
  (ftos xx 11 5 fmt).map fun xs => cut8 xs ++ cstr a

/-- `plottr` (plot.cc:31-63): the first two of the probes; a value `NOT_VALID` is not drawn -/
def plottr (o : ℕ) (fmt : Fmt) (empty : List Char) (xx : ℚ) : List Prb → Option (List Char)
  | [] => plotarg o fmt empty xx ⟨0, 0, 0⟩ none
  | [y] => plotarg o fmt empty xx y none
  | y :: z :: _ => plotarg o fmt empty xx y (if z.val = notValid then none else some z)

/-- the number at a mark (plot.cc:144-147) -/
def markNo (s : ℤ) (ydiv lo hi : ℚ) (m : ℕ) : ℚ :=
  let number := lo + (hi - lo) * m / ydiv
  if |number| < |hi - lo| / (10 * s) then 0 else number

/-- a number as it is written there, 8 characters (plot.cc:135-136, 148-149) -/
def numText (fmt : Fmt) (v : ℚ) : Option (List Char) := (ftos v 0 5 fmt).map (·.take 8)

/-- where the number of mark `m` begins (plot.cc:151-152) -/
def startOf (s : ℤ) (ydiv : ℚ) (m : ℕ) (t : List Char) : ℤ := rnd (indent + s * (m / ydiv)) - ((t.length + 1) / 2 : ℕ)

/-- the loop (plot.cc:143-158): texts with their columns, those left out for which there is no room -/
def placed (s : ℤ) (ydiv : ℚ) (stop : ℤ) : ℤ → List (ℕ × List Char) → List (ℤ × List Char)
  | _, [] => []
  | filled, (m, t) :: l =>
    if filled < startOf s ydiv m t ∧ startOf s ydiv m t + t.length < stop then
      (startOf s ydiv m t, t) :: placed s ydiv stop (startOf s ydiv m t + t.length) l
    else placed s ydiv stop filled l

/-- `calibrate` (plot.cc:114-160): the texts and their columns, the last one the upper limit -/
def calibrate (o : ℕ) (fmt : Fmt) (ydiv lo hi : ℚ) : Option (List (ℤ × List Char)) :=
  let l := limits lo hi
  (numText fmt l.2).bind fun highs =>
  let stop := outWidth o - highs.length - 1
  ((List.range ⌈ydiv⌉₊).mapM fun m => (numText fmt (markNo (consScale o) ydiv l.1 l.2 m)).map fun t => (m, t)).map fun ts =>
    placed (consScale o) ydiv stop 0 ts ++ [(stop, highs)]

/-- what is written (plot.cc:140, 154, 159): the label, then every text in its column; `tab` takes a `size_t` (io_.h:93) -/
def calOps (om : Om) (label : List Char) (l : List (ℤ × List Char)) : List (Om × Op) :=
  (om, .str label) :: (l.flatMap fun x => [(om, .tab (x.1 % 2 ^ 64).toNat), (om, .str x.2)]) ++ [(om, .chr '\n')]

end Gnucap.Plot
