import Verif.InterpModel

/-!
# Splines (model of lib/m_spline.cc)

Exact arithmetic.  The arrays are functions on the indices `0..n`; `NOT_INPUT` for an end slope is `none`; `tol` is
`OPT::roundofftol` and `nv` is `NOT_VALID`.  Arrays that the chosen order does not allocate are 0 here and are not read.
A loop that computes entry `i + 1` of an array from entry `i` is written as a recursive function of the index.
-/
namespace Gnucap.Spline
open Gnucap.Integ (FPoly)
open Gnucap.Interp (Out)

variable {F : Type _} [Field F] [LinearOrder F]

/-- the table: `n + 1` points -/
structure Table (F : Type _) where
  n : ℕ
  x : ℕ → F
  f : ℕ → F

/-- `h` (m_spline.cc:49-56) -/
def Table.h (t : Table F) (i : ℕ) : F := t.x (i + 1) - t.x i

/-- the object (include/m_spline.h) -/
structure Spl (F : Type _) where
  t : Table F
  f1 : ℕ → F
  f2 : ℕ → F
  f3 : ℕ → F
  d0 : F
  order : ℕ

/-- the chord slope -/
def Table.slope (t : Table F) (i : ℕ) : F := (t.f (i + 1) - t.f i) / t.h i

/-- `construct_order_1` (m_spline.cc:115-135), except for one point with no upper slope.  With one point `_f1[0]` is `NOT_VALID`
when `_d0` is set. -/
def construct1 (nv : F) (t : Table F) (d0 dn : Option F) : Spl F :=
  { t := t
    f1 := fun i => if i = t.n then (match dn with | none => t.slope (t.n - 1) | some d => d) else t.slope i
    f2 := fun _ => 0
    f3 := fun _ => 0
    d0 := match d0 with | none => (if t.n = 0 then nv else t.slope 0) | some d => d
    order := 1 }

/-- the upward loop of `construct_order_2` (m_spline.cc:144-146) -/
def up2 (t : Table F) (d0 : F) : ℕ → F
  | 0 => d0
  | i + 1 => 2 * (t.f (i + 1) - t.f i) / t.h i - up2 t d0 i

/-- the downward loop (m_spline.cc:154-156): entry `n - k` -/
def down2 (t : Table F) (last : F) : ℕ → F
  | 0 => last
  | k + 1 => let i := t.n - (k + 1); 2 * (t.f (i + 1) - t.f i) / t.h i - down2 t last k

/-- `_f1` of `construct_order_2` (m_spline.cc:141-163) -/
def f1of2 (t : Table F) (d0 dn : Option F) : ℕ → F :=
  match d0, dn with
  | some d, none => up2 t d
  | _, none => fun i => down2 t ((t.f t.n - t.f (t.n - 1)) / t.h (t.n - 1)) (t.n - i)
  | _, some d => fun i => down2 t d (t.n - i)

/-- `construct_order_2` (m_spline.cc:137-172) for `n ≥ 1` -/
def construct2 (t : Table F) (d0 dn : Option F) : Spl F :=
  let f1 := f1of2 t d0 dn
  { t := t
    f1 := f1
    f2 := fun i => if i = t.n then 0 else 1 / 2 * (f1 (i + 1) - f1 i) / t.h i
    f3 := fun _ => 0
    d0 := match d0 with | none => f1 0 | some d => d
    order := 2 }

/-- `b` (m_spline.cc:179-194) -/
def b3 (t : Table F) (d0 dn : Option F) (i : ℕ) : F :=
  if i = 0 then (match d0 with | none => 0 | some d => 3 * ((t.f 1 - t.f 0) / t.h 0 - d))
  else if i = t.n then (match dn with | none => 0 | some d => 3 * (d - (t.f t.n - t.f (t.n - 1)) / t.h (t.n - 1)))
  else 3 * (t.f (i + 1) * t.h (i - 1) - t.f i * (t.h i + t.h (i - 1)) + t.f (i - 1) * t.h i) / (t.h (i - 1) * t.h i)

/-- `u` (m_spline.cc:199-210), entries below `n` -/
def u3 (t : Table F) (d0 : Option F) : ℕ → F
  | 0 => match d0 with | none => 0 | some _ => 1 / 2
  | i + 1 => t.h (i + 1) / (2 * (t.h (i + 1) + t.h i) - t.h i * u3 t d0 i)

/-- `z` (m_spline.cc:200-211), entries below `n` -/
def z3 (t : Table F) (d0 dn : Option F) : ℕ → F
  | 0 => match d0 with | none => 0 | some _ => b3 t d0 dn 0 / (2 * t.h 0)
  | i + 1 => (b3 t d0 dn (i + 1) - z3 t d0 dn i * t.h i) / (2 * (t.h (i + 1) + t.h i) - t.h i * u3 t d0 i)

/-- `z[_n]` (m_spline.cc:212-217) -/
def zn3 (t : Table F) (d0 dn : Option F) : F :=
  match dn with
  | none => 0
  | some _ => (b3 t d0 dn t.n - z3 t d0 dn (t.n - 1) * t.h (t.n - 1)) / (t.h (t.n - 1) * (2 - u3 t d0 (t.n - 1)))

/-- `_f2` after the back substitution (m_spline.cc:225-228), entry `n - k` -/
def back3 (t : Table F) (d0 dn : Option F) : ℕ → F
  | 0 => zn3 t d0 dn
  | k + 1 => let i := t.n - (k + 1); z3 t d0 dn i - u3 t d0 i * back3 t d0 dn k

/-- `_f2` before the last slot is cleared -/
def m3 (t : Table F) (d0 dn : Option F) (i : ℕ) : F := back3 t d0 dn (t.n - i)

/-- `_f1` below `n` (m_spline.cc:229) -/
def s3 (t : Table F) (d0 dn : Option F) (i : ℕ) : F :=
  (t.f (i + 1) - t.f i) / t.h i - t.h i * (m3 t d0 dn (i + 1) + 2 * m3 t d0 dn i) / 3

/-- `fixzero` (include/l_denoise.h:31-39) -/
def fixzero (tol z r : F) : F := if |z| < |r * tol| then 0 else z

/-- `construct_order_3` (m_spline.cc:174-246) for `n ≥ 1`.  When `_d0` is set (234), `_f1[_n]` still is `NOT_VALID` (218). -/
def construct3 (tol nv : F) (t : Table F) (d0 dn : Option F) : Spl F :=
  { t := t
    f1 := fun i => if i = t.n then
        (match dn with
         | none => s3 t d0 dn (t.n - 1) + (t.x t.n - t.x (t.n - 1)) * m3 t d0 dn (t.n - 1)
         | some d => d)
      else s3 t d0 dn i
    f2 := fun i => if i = t.n then 0 else m3 t d0 dn i
    f3 := fun i => if i = t.n then 0 else (m3 t d0 dn (i + 1) - m3 t d0 dn i) / (3 * t.h i)
    d0 := fixzero tol (s3 t d0 dn 0) (if t.n = 1 then nv else s3 t d0 dn 1)
    order := 3 }

/-- the constructor (m_spline.cc:29-71): duplicate points are an error; with one point the constructors of order 1 to 3 read
entry -1 or 1 of an array of one (not when order 1 has an upper slope, or order 2 has any slope).  An empty table cannot be expressed here. -/
def construct (tol nv : F) (t : Table F) (d0 dn : Option F) (order : ℕ) : Out (Spl F) :=
  if (List.range t.n).any (fun i => decide (t.h i = 0)) then .throw
  else
    match order with
    | 3 => if t.n = 0 then .ub else .ok (construct3 tol nv t d0 dn)
    | 2 => if t.n = 0 ∧ d0 = none ∧ dn = none then .ub else .ok (construct2 t d0 dn)
    | 1 => if t.n = 0 ∧ dn = none then .ub else .ok (construct1 nv t d0 dn)
    | _ => .ok ⟨t, fun _ => 0, fun _ => 0, fun _ => 0, 0, 0⟩

/-- `std::upper_bound(_x, _x+_n+1, x)` (m_spline.cc:261) as an index, by linear search: `r` entries left, from `i` on -/
def upper (x : ℕ → F) (y : F) : ℕ → ℕ → ℕ
  | 0, i => i
  | r + 1, i => if x i ≤ y then upper x y r (i + 1) else i

/-- `SPLINE::at` (m_spline.cc:257-303) -/
def Spl.at (s : Spl F) (y : F) : FPoly F :=
  let here := upper s.t.x y (s.t.n + 1) 0
  if here = 0 then
    if s.order = 0 then ⟨y, s.t.f 0, 0⟩
    else ⟨y, s.t.f 0 + (y - s.t.x 0) * s.d0, s.d0⟩
  else
    let i := here - 1
    let dx := y - s.t.x i
    match s.order with
    | 3 => ⟨y, s.t.f i + dx * (s.f1 i + dx * (s.f2 i + dx * s.f3 i)), s.f1 i + dx * (2 * s.f2 i + 3 * dx * s.f3 i)⟩
    | 2 => ⟨y, s.t.f i + dx * (s.f1 i + dx * s.f2 i), s.f1 i + dx * (2 * s.f2 i)⟩
    | 1 => ⟨y, s.t.f i + dx * s.f1 i, s.f1 i⟩
    | _ => ⟨y, s.t.f i, 0⟩

end Gnucap.Spline
