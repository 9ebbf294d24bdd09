import Verif.BehavModel

/-!
# Capacitors and inductors over a transient (model)

`DEV_CAPACITANCE`, `DEV_TRANSCAP`, `DEV_VCCAP` (apps/d_cap.cc) and `DEV_INDUCTANCE` without a current node (apps/d_coil.cc):
`tr_begin`, `dc_advance`, `tr_advance`, `tr_regress`, `do_tr`, `do_ac` and the line they load.  Exact arithmetic.
-/
namespace Gnucap.Stor
open Gnucap.Integ

/-- the classes -/
inductive Cls where
  | cap | tcap | vccap | ind
  deriving DecidableEq

/-- `STORAGE` with what it inherits (e_elemnt.h:184-195, e_storag.h:66): `value()`, `_y`, `_i`, `_time`, `_m0` -/
structure Sto (F : Type _) where
  value : F
  y : ℕ → FPoly F
  i : ℕ → FPoly F
  time : ℕ → F
  m0 : CPoly F

/-- How the element is described: `fn` is `common()->tr_eval`, where there is one, `probes` is `has_probes()` -/
structure Desc (F : Type _) where
  cls : Cls
  short : F
  linear : F
  probes : Bool
  fn : Option (F → FPoly F)

/-- `using_tr_eval` (e_elemnt.h:458-461) -/
def Desc.using {F : Type _} (d : Desc F) : Bool := d.probes || d.fn.isSome

/-- The voltages an element sees when it is evaluated: between its input nodes, after limiting (`tr_involts_limited`), and
between its output nodes.  They are the same for the classes with two nodes. -/
structure Ext (F : Type _) where
  vin : F
  vout : F

section
variable {F : Type _} [Field F] [DecidableEq F]

/-- assignment to element 0 of a history -/
def set0 {α : Type _} (a : ℕ → α) (v : α) : ℕ → α := fun k => if k = 0 then v else a k

/-- `STORAGE::tr_begin` (e_storag.cc:73-81), `ELEMENT::tr_begin` (e_elemnt.cc:177-189), `DEV_INDUCTANCE::tr_begin`
(d_coil.cc:307-311) -/
def begin (d : Desc F) (v : F) : Sto F :=
  { value := v, y := set0 (fun _ => ⟨0, 0, 0⟩) ⟨0, d.linear, v⟩, i := fun _ => ⟨0, 0, 0⟩, time := fun _ => 0, m0 := ⟨0, 0, 0⟩ }

/-- `STORAGE::dc_advance` (e_storag.cc:90-97) -/
def Sto.dcAdvance (s : Sto F) : Sto F := { s with i := fun k => if 1 ≤ k ∧ k < keep then s.i 0 else s.i k }

/-- `STORAGE::tr_advance` (e_storag.cc:99-106), `ELEMENT::tr_advance` (e_elemnt.cc:246-258) -/
def Sto.advance (t : F) (s : Sto F) : Sto F :=
  { s with time := set0 (shift s.time) t, y := shift s.y, i := shift s.i }

/-- `ELEMENT::tr_regress` (e_elemnt.cc:260-271) -/
def Sto.regress (t : F) (s : Sto F) : Sto F := { s with time := set0 s.time t }

/-- `ELEMENT::tr_eval` at `_y[0].x = x` (e_elemnt.h:468-480) -/
def trEval (d : Desc F) (value x : F) : FPoly F :=
  match d.fn with
  | some g => g x
  | none => ⟨x, x * value, value⟩

/-- the charge or flux, `_y[0]`, at the end of its computation in `do_tr` -/
def Sto.charge (d : Desc F) (a : Ext F) (s : Sto F) : FPoly F :=
  match d.cls with
  | .cap | .tcap =>                                                     -- d_cap.cc:140-148
    if d.using then trEval d s.value a.vin else ⟨a.vin, a.vin * (s.y 0).f1, (s.y 0).f1⟩
  | .vccap =>                                                           -- d_cap.cc:191-199
    let p := trEval d s.value a.vin
    ⟨a.vout, a.vout * p.f0, p.f0⟩
  | .ind =>                                                             -- d_coil.cc:350-365, 457-474
    let x := s.m0.c0 + s.m0.c1 * a.vin
    if d.using then
      let p := trEval d s.value x
      if p.f1 = 0 then { p with f1 := d.short } else p
    else ⟨x, x * (s.y 0).f1, (s.y 0).f1⟩

/-- the line for the matrix from the derivative (d_cap.cc:155, 202-204, d_coil.cc:373-376) -/
def line (d : Desc F) (i : FPoly F) : CPoly F :=
  match d.cls with
  | .ind =>
    let c1 := 1 / (if i.toC.c1 = 0 then d.short else i.toC.c1)
    ⟨0, -i.toC.c0 * c1, c1⟩
  | _ => i.toC

/-- `do_tr` (d_cap.cc:138-157, 189-206, d_coil.cc:349-385) -/
def Sto.doTr (d : Desc F) (ph : Phase) (m : Method) (a : Ext F) (s : Sto F) : Sto F :=
  let y := set0 s.y (s.charge d a)
  let i0 := differentiate ph y s.i s.time m
  { s with y := y, i := set0 s.i i0, m0 := line d i0 }

/-- What is loaded, as a current between the output nodes: `tr_load_passive`, for the transcapacitor `tr_load_active` -/
def Sto.loaded (d : Desc F) (s : Sto F) (vin vout : F) : F :=
  match d.cls with
  | .tcap => s.m0.c1 * vin + s.m0.c0
  | _ => s.m0.c1 * vout + s.m0.c0

/-- What the probe `i` shows: `ELEMENT::tr_amps` (e_elemnt.cc:369-374) with no loss, `DEV_INDUCTANCE::tr_amps` -/
def Sto.amps (s : Sto F) (vin : F) : F := s.m0.c1 * vin + s.m0.c0

/-- `_ev` in AC (d_cap.cc:66, 159-169, bm.cc:174-179 before the AC modifiers): the slope of `_y[0]`, or of the function
evaluated at `_y[0].x` -/
def Sto.ev (d : Desc F) (s : Sto F) : F :=
  match d.fn with
  | some g => (g (s.y 0).x).f1
  | none => (s.y 0).f1

/-- One attempt at a time step: the time, and the voltages of its iterations, the last one apart. -/
structure Try (F : Type _) where
  t : F
  its : List (Ext F)
  last : Ext F

/-- the evaluations of one attempt -/
def Sto.iters (d : Desc F) (m : Method) (a : Try F) (s : Sto F) : Sto F :=
  ((a.its ++ [a.last]).foldl (fun s e => s.doTr d .dynamic m e) s)

/-- A time step: the attempts, of which the last is accepted.  The first moves forward, the others back
(s__solve.cc:151-174). -/
structure Step (F : Type _) where
  first : Try F
  more : List (Try F)

def Step.final (p : Step F) : Try F := (p.more.getLast?).getD p.first

def Sto.step (d : Desc F) (m : Method) (p : Step F) (s : Sto F) : Sto F :=
  p.more.foldl (fun s a => (s.regress a.t).iters d m a) ((s.advance p.first.t).iters d m p.first)

/-- What is left of a step: the time, `_y[0]` and `_i[0]` -/
structure Rec (F : Type _) where
  t : F
  y : FPoly F
  i : FPoly F

/-- a transient analysis: what each accepted step leaves, and the state after it -/
def Sto.run (d : Desc F) (m : Method) : List (Step F) → Sto F → List (Rec F) × Sto F
  | [], s => ([], s)
  | p :: ps, s =>
    let s' := s.step d m p
    let r := s'.run d m ps
    (⟨p.final.t, s'.y 0, s'.i 0⟩ :: r.1, r.2)

end
end Gnucap.Stor
