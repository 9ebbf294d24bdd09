import Mathlib.Analysis.SpecialFunctions.Trigonometric.Basic
import Mathlib.Analysis.SpecialFunctions.Pow.NNReal
import Verif.InterpModel

/-!
# Transmission line (model)

Models `COMMON_TRANSLINE::precalc_last`, `DEV_TRANSLINE` (d_trln.cc) over `WAVE` (m_wave.h): what begins, advances, is
loaded, reviewed and accepted in a transient, and the admittances of an AC analysis.  Exact arithmetic.  The voltages of the
ports at each attempted step are inputs.
-/
set_option linter.unusedSectionVars false
namespace Gnucap.Tline
open Gnucap.Interp (Out Wave)
open Gnucap.Mat (Loaded loadSymmetric loadAsymmetric vset)

/-! ## parameters -/

/-- The parameters that matter (d_trln.cc:34-43); `none`: not given (no "hard value"), so `len` is 1 and `nl` 0.25
(d_trln.cc:143-151).  `r`, `g` and the initial conditions are never used after this, so they are left out. -/
structure Par where
  len : Option ℝ := none
  l : Option ℝ := none
  c : Option ℝ := none
  z0 : Option ℝ := none
  td : Option ℝ := none
  f : Option ℝ := none
  nl : Option ℝ := none

/-- `real_td` (d_trln.cc:327-345); `none`: left as it was, with a message -/
noncomputable def Par.realTd (p : Par) : Option ℝ :=
  match p.td with
  | some td => some (p.len.getD 1 * td)
  | none =>
    match p.f with
    | some f => some (p.len.getD 1 * p.nl.getD (1 / 4) / f)
    | none =>
      match p.l, p.c with
      | some l, some c => some (p.len.getD 1 * Real.sqrt (l * c))
      | _, _ => none

/-- `real_z0` (d_trln.cc:347-363) -/
noncomputable def Par.realZ0 (p : Par) : ℝ :=
  match p.z0 with
  | some z => z
  | none =>
    match p.l, p.c with
    | some l, some c => Real.sqrt (l / c)
    | _, _ => 50

/-! ## transient -/

section Tran
variable {F : Type _} [Field F] [LinearOrder F] [IsStrictOrderedRing F]

/-- internal node numbers, 0 is ground -/
structure Nodes where
  out1 : ℕ
  out2 : ℕ
  in1 : ℕ
  in2 : ℕ

/-- The data of `DEV_TRANSLINE` used in a transient (d_trln.cc:73-78) -/
structure Dev (F : Type _) where
  fwd : Wave F
  refl : Wave F
  if0 : F
  ir0 : F
  if1 : F
  ir1 : F

/-- the constructor and `precalc_last` (d_trln.cc:367-385): the delays are set -/
def Dev.fresh (td : F) : Dev F := ⟨⟨[], td⟩, ⟨[], td⟩, 0, 0, 0, 0⟩

/-- `tr_begin` (d_trln.cc:394-401) -/
def Dev.begin (td : F) (d : Dev F) : Dev F := { d with fwd := d.fwd.lineBegin td, refl := d.refl.lineBegin td }

/-- `dc_advance`, `tr_advance`, `tr_regress` (d_trln.cc:409-432), all three the same -/
def Dev.advance (z0 t : F) (d : Dev F) : Out (Dev F) :=
  match d.fwd.vOut t with
  | .ok f =>
    match d.refl.vOut t with
    | .ok r => .ok { d with if0 := f.f0 / z0, ir0 := r.f0 / z0 }
    | .throw => .throw
    | .ub => .ub
  | .throw => .throw
  | .ub => .ub

/-- `conchk` (e_compon.h:44-48) -/
def conchk (o n a r : F) : Bool := decide (|n - o| ≤ r * |n| + a)

/-- `do_tr` (d_trln.cc:438-449): whether the line is queued for loading -/
def Dev.queued (abstol reltol : F) (d : Dev F) : Bool :=
  !conchk d.if0 d.if1 abstol (reltol * (1 / 100)) || !conchk d.ir0 d.ir1 abstol (reltol * (1 / 100))

/-- `n.i() += x` unless the node is ground -/
def bump (n : ℕ) (x : F) (iv : ℕ → F) : ℕ → F := if n ≠ 0 then vset iv n (iv n + x) else iv

/-- `tr_load` (d_trln.cc:451-491) into matrix and right side -/
def Dev.load (n : Nodes) (z0 mf tol : F) (inc : Bool) (d : Dev F) (m : Loaded F) (iv : ℕ → F) : Dev F × Loaded F × (ℕ → F) :=
  let m := if inc then m else loadSymmetric n.in1 n.in2 (mf / z0) (loadSymmetric n.out1 n.out2 (mf / z0) m)
  let lvf := if inc then Gnucap.Load.dnDiff tol d.if0 d.if1 else d.if0
  let lvr := if inc then Gnucap.Load.dnDiff tol d.ir0 d.ir1 else d.ir0
  let iv := if lvf ≠ 0 then bump n.out2 (-(mf * lvf)) (bump n.out1 (mf * lvf) iv) else iv
  let iv := if lvr ≠ 0 then bump n.in2 (-(mf * lvr)) (bump n.in1 (mf * lvr) iv) else iv
  ({ d with if1 := d.if0, ir1 := d.ir0 }, m, iv)

/-- the time `tr_review` asks for (d_trln.cc:495-501) -/
def review (td t : F) : F := t + td

/-- `tr_accept` (d_trln.cc:505-510): the second push already sees the first -/
def Dev.accept (tol t vout vin : F) (d : Dev F) : Out (Dev F) :=
  match d.fwd.vReflect tol t vout with
  | .ok w =>
    let refl := d.refl.push t w
    match refl.vReflect tol t vin with
    | .ok x => .ok { d with refl := refl, fwd := d.fwd.push t x }
    | .throw => .throw
    | .ub => .ub
  | .throw => .throw
  | .ub => .ub

/-- An attempted time step: the time, the voltages of the ports in its solution, and whether it is accepted
(s_tr_swp.cc:131-157) -/
structure Att (F : Type _) where
  t : F
  vin : F
  vout : F
  ok : Bool

/-- What is on record of an accepted step: time, port voltages, and the sources that were loaded -/
structure Rec (F : Type _) where
  t : F
  vin : F
  vout : F
  ir : F
  if_ : F

/-- One attempt: advance, solve (an input), and accept or not (s_tr_swp.cc:146-165) -/
def Dev.attempt (z0 tol : F) (a : Att F) (s : Dev F × List (Rec F)) : Out (Dev F × List (Rec F)) :=
  match s.1.advance z0 a.t with
  | .ok d =>
    if a.ok then
      match d.accept tol a.t a.vout a.vin with
      | .ok d' => .ok (d', s.2 ++ [⟨a.t, a.vin, a.vout, d.ir0, d.if0⟩])
      | .throw => .throw
      | .ub => .ub
    else .ok (d, s.2)
  | .throw => .throw
  | .ub => .ub

/-- the attempts of a transient in turn -/
def Dev.attempts (z0 tol : F) : List (Att F) → Dev F × List (Rec F) → Out (Dev F × List (Rec F))
  | [], s => .ok s
  | a :: as, s =>
    match Dev.attempt z0 tol a s with
    | .ok s' => Dev.attempts z0 tol as s'
    | .throw => .throw
    | .ub => .ub

/-- A transient (s_tr_swp.cc:96-165): `tr_begin`, the static solution at time 0, which is always accepted, then the steps -/
def Dev.run (td z0 tol vin0 vout0 : F) (as : List (Att F)) (d : Dev F) : Out (Dev F × List (Rec F)) :=
  Dev.attempts z0 tol (⟨0, vin0, vout0, true⟩ :: as) (d.begin td, [])

end Tran

/-! ## AC -/

/-- `LINLENTOL` (d_trln.cc:152) -/
noncomputable def linLenTol : ℝ := 1 / 1000000

/-- the length in quarter waves after the tweak (d_trln.cc:520-527) -/
noncomputable def acLength (freq td : ℝ) : ℝ :=
  let lenth := freq * td * 4
  let near : ℝ := ⌊lenth + 1 / 2⌋
  let dif := lenth - near
  if |dif| < linLenTol then (if dif < 0 then near - linLenTol else near + linLenTol) else lenth

/-- `_y12` (d_trln.cc:528-530) -/
noncomputable def y12 (z0 freq td : ℝ) : ℂ := ⟨0, -1 / (z0 * Real.sin (acLength freq td * (Real.pi / 2)))⟩

/-- `_y11` (d_trln.cc:528, 531) -/
noncomputable def y11 (z0 freq td : ℝ) : ℂ := ⟨0, -1 / (z0 * Real.tan (acLength freq td * (Real.pi / 2)))⟩

/-- `ac_load` (d_trln.cc:534-543): note the exchanged columns -/
noncomputable def acLoad (n : Nodes) (mf : ℂ) (y11 y12 : ℂ) (m : Loaded ℂ) : Loaded ℂ :=
  loadAsymmetric n.in1 n.in2 n.out2 n.out1 (mf * y12)
    (loadAsymmetric n.out1 n.out2 n.in2 n.in1 (mf * y12)
      (loadSymmetric n.in1 n.in2 (mf * y11) (loadSymmetric n.out1 n.out2 (mf * y11) m)))

end Gnucap.Tline
