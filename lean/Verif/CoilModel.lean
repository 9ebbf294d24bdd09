import Verif.IntegModel
import Verif.LoadLemmas

/-!
# Coupled inductors (`apps/d_coil.cc`): model

The mutual inductance "K" with its histories, and what it and a coil with a current node load.  Exact arithmetic; `_lm`,
the product of the coupling and the square root of the two inductances (d_coil.cc:282, 392), is an input of each evaluation.
-/
namespace Gnucap.Coil
open Gnucap.Integ Gnucap.Load

variable {F : Type _} [Field F] [DecidableEq F]

/-- assignment to element 0 of a history -/
def set0 {α : Type _} (a : ℕ → α) (v : α) : ℕ → α := fun k => if k = 0 then v else a k

/-- `class DEV_MUTUAL_L` (d_coil.cc:84-101) with the inherited `_y`, `_i`, `_time`, `_loss0`, `_m0` -/
structure Mut (F : Type _) where
  y : ℕ → FPoly F
  yf : ℕ → FPoly F
  yr : ℕ → FPoly F
  i : ℕ → FPoly F
  fi : ℕ → FPoly F      -- _if
  ri : ℕ → FPoly F      -- _ir
  time : ℕ → F
  loss : F              -- _loss0
  c1 : F                -- _m0.c1
  c0 : F                -- _m0.c0
  mf : F                -- _mf0_c0
  mr : F                -- _mr0_c0

/-- `DEV_MUTUAL_L::tr_begin` (d_coil.cc:313-325), `DEV_INDUCTANCE::tr_begin` (307-311), `STORAGE::tr_begin` (e_storag.cc:73-81),
`ELEMENT::tr_begin` (e_elemnt.cc:177-189).  `_yf` and `_yr` keep what they have.  `linear` is the constant LINEAR. -/
def trBegin (linear lm : F) (s : Mut F) : Mut F :=
  let z : ℕ → FPoly F := fun _ => ⟨0, 0, 0⟩
  { s with
    y := set0 z ⟨0, linear, -lm⟩, i := z, fi := z, ri := z, time := fun _ => 0, loss := 1, c1 := 0, c0 := 0, mf := 0, mr := 0 }

/-- the loops of `dc_advance` (e_storag.cc:94-96, d_coil.cc:331-334) -/
def level {α : Type _} (a : ℕ → α) : ℕ → α := fun k => if 1 ≤ k ∧ k < keep then a 0 else a k

/-- `DEV_MUTUAL_L::dc_advance` (d_coil.cc:327-335), `STORAGE::dc_advance` (e_storag.cc:90-97) -/
def dcAdvance (s : Mut F) : Mut F := { s with i := level s.i, fi := level s.fi, ri := level s.ri }

/-- `DEV_MUTUAL_L::tr_advance` (d_coil.cc:337-347), `STORAGE::tr_advance` (e_storag.cc:99-106), `ELEMENT::tr_advance`
(e_elemnt.cc:246-258) -/
def trAdvance (t : F) (s : Mut F) : Mut F :=
  { s with
    time := set0 (shift s.time) t, y := shift s.y, i := shift s.i, yf := shift s.yf, yr := shift s.yr, fi := shift s.fi,
    ri := shift s.ri }

/-- `ELEMENT::tr_regress` (e_elemnt.cc:260-271) -/
def trRegress (t : F) (s : Mut F) : Mut F := { s with time := set0 s.time t }

/-- `DEV_MUTUAL_L::do_tr_last` (d_coil.cc:387-427); `j1`, `j2` are the voltages of the nodes OUT1, OUT2, which are the
currents of the two coils. -/
def doTrLast (ph : Phase) (m : Method) (lm j1 j2 : F) (s : Mut F) : Mut F :=
  let y := set0 s.y ⟨j1 - j2, (j1 - j2) * -lm, -lm⟩
  let i := set0 s.i (differentiate ph y s.i s.time m)
  let yf := set0 s.yf ⟨j1, j1 * -lm, -lm⟩
  let fi := set0 s.fi (differentiate ph yf s.fi s.time m)
  let yr := set0 s.yr ⟨j2, j2 * -lm, -lm⟩
  let ri := set0 s.ri (differentiate ph yr s.ri s.time m)
  { s with
    y := y, i := i, yf := yf, fi := fi, yr := yr, ri := ri,
    c1 := -s.loss * s.loss * (i 0).toC.c1, c0 := -s.loss * s.loss * (i 0).toC.c0,
    mf := -s.loss * s.loss * (fi 0).toC.c0, mr := -s.loss * s.loss * (ri 0).toC.c0 }

/-- `STORAGE::tr_needs_eval` (e_storag.cc:112-121) for the mutual inductance with the default options, not in the first two
iterations and converged: `!conchk(_y[0].x, tr_input(), abstol)` (e_compon.h:44-48), `tr_input` is the difference of the two
node voltages (d_coil.cc:129, 64). -/
def needsEval [LinearOrder F] (abstol reltol j1 j2 : F) (s : Mut F) : Bool :=
  !decide (|(j1 - j2) - (s.y 0).x| ≤ reltol * |j1 - j2| + abstol)

/-- `DEV_MUTUAL_L::tr_load` (d_coil.cc:440-446): what reaches matrix and right side when loaded from scratch.  `a`, `b` are
the nodes OUT1, OUT2. -/
def Mut.loads (s : Mut F) (a b : ℕ) : List (Kind × F) :=
  [(.couple a b, s.c1), (.source a b, s.c0), (.srcPoint b, s.mr), (.srcPoint a, s.mf)]

/-- `DEV_INDUCTANCE::do_tr` and `tr_load` with a current node (d_coil.cc:371, 377-382, 429-438): `i0` is `_i[0]`, `loss`
is `_loss0`, `p` is the current node. -/
def coilLoads (loss : F) (i0 : FPoly F) (o1 o2 p : ℕ) : List (Kind × F) :=
  [(.inode o1 o2 p, loss), (.diag p, -loss * loss * i0.toC.c1), (.srcPoint p, loss * loss * i0.toC.c0)]

/-- AC: `do_ac` (d_coil.cc:511-528) and `ac_load` (530-538) of a coil with a current node -/
def coilAcLoads (loss ev jw : F) (o1 o2 p : ℕ) : List (Kind × F) :=
  [(.inode o1 o2 p, loss), (.diag p, -loss * loss * ev * jw)]

/-- AC: `do_ac` (d_coil.cc:511-528) and `ac_load` (540-543) of the mutual inductance; `_ev` is `_y[0].f1` (ac_begin, 508) -/
def mutAcLoads (loss lm jw : F) (a b : ℕ) : List (Kind × F) := [(.couple a b, -loss * loss * -lm * jw)]

/-- the calls -/
inductive Ev (F : Type _) where
  | begin (lm : F)
  | dcAdvance
  | advance (t : F)
  | regress (t : F)
  | eval (ph : Phase) (lm j1 j2 : F)

/-- dispatch -/
def step (linear : F) (m : Method) (s : Mut F) : Ev F → Mut F
  | .begin lm => trBegin linear lm s
  | .dcAdvance => dcAdvance s
  | .advance t => trAdvance t s
  | .regress t => trRegress t s
  | .eval ph lm j1 j2 => doTrLast ph m lm j1 j2 s

end Gnucap.Coil
