import Verif.NumModel
import Verif.OutModel

/-!
# Printed tables (C80)

Models the heading and the rows of results (s__out.cc:82-126) as texts and what is written.  The numbers are exact (NumModel).  Left out:
the plot (plopen, plottr), the stored waves.
-/
namespace Gnucap.Table
open Gnucap.Num Gnucap.Out

/-- `numdgt` is kept from 3 to 20 (u_opt2.cc:203) -/
def toRange (n : ℤ) : ℕ := (max 3 (min n 20)).toNat

/-- the buffer of `form` (io_out.cc:81, md.h:72) -/
def buffer : ℕ := 4096

/-- `form` (io_out.cc:79-90) of a text; `none`: it does not fit in the buffer -/
def form (s : List Char) : Option (List Char) := if s.length < buffer then some s else none

/-- `"%c%-{width}s"` (s__out.cc:94-99) -/
def headCell (n : ℕ) (c : Char) (label : List Char) : Option (List Char) :=
  form (c :: (label ++ List.replicate (min (n + 5) (buffer - 10) - label.length) ' '))

/-- the heading (s__out.cc:99-104), text by text -/
def head (n : ℕ) (col1 : List Char) (labels : List (List Char)) : Option (List (List Char)) :=
  (headCell n '#' col1).bind fun c => (labels.mapM (headCell n ' ')).map (c :: ·)

/-- a row (s__out.cc:116-122, io_.h:97-98), text by text -/
def row (n : ℕ) (fmt : Fmt) (x : ℚ) (vs : List ℚ) : Option (List (List Char)) :=
  (x :: vs).mapM fun v => ftos v (n + 6) n fmt

/-- what is written of it: the texts and a newline (s__out.cc:105, 123) -/
def ops (o : Om) (l : List (List Char)) : List (Om × Op) := (l.map fun s => (o, Op.str s)) ++ [(o, Op.chr '\n')]

end Gnucap.Table
