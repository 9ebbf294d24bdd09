import Mathlib.Analysis.SpecialFunctions.Pow.Real

/-!
# DC and AC sweeps

Model of `apps/s_dc.cc` (fix_args 361-409, sweep_recursive 485-513, first 515-534, next 536-615, the choice of what is
swept in `DC::setup` 290-327 and 337-356, `finish` 218-238, `set_sweepval` 89-106) and of `apps/s_ac.cc` (the last part of
`setup` 171-228, `sweep` 254-269, `first` 271-274, `next` 276-294).

Numbers are reals, so rounding is not modelled; in `double` a step far below the value it is added to is lost and the sweep
does not end, which this model cannot show.  `pow` is the real power; the code calls it only with a positive base in the
cases the theorems speak about.  What happens at a point (precalc, solve, accept, output) is one recorded value.
-/
namespace Gnucap.Sweep

open Classical in
/-- `in_order(a,b,c)`, `include/l_compar.h:28-39`: `b` lies between `a` and `c`, whichever of them is larger. -/
noncomputable def inOrder (a b c : ℝ) : Bool := decide ((a ≤ b ∧ b ≤ c) ∨ (c ≤ b ∧ b ≤ a))

open Classical in
/-- `fixzero(&z, r)`, `include/l_denoise.h:31-39`; `tol` is `OPT::roundofftol`. -/
noncomputable def fixzero (tol z r : ℝ) : ℝ := if |z| < |r * tol| then 0 else z

/-- The step modes of `s_dc.cc:138` and `s_ac.cc:66`. -/
inductive Mode | onePt | linStep | linPts | times | octave | decade
  deriving DecidableEq

/-- The arguments of one sweep after `fix_args` (`s_dc.cc:117-122,132-133`). -/
structure Level where
  start : ℝ
  stop : ℝ
  step : ℝ
  lin : Bool
  loop : Bool
  reverseIn : Bool

open Classical in
/-- `DCOP::fix_args`, `s_dc.cc:361-409`: step size and kind of sweep from the mode and the number given. -/
noncomputable def fixArgs (mode : Mode) (start stop stepIn : ℝ) : ℝ × Bool :=
  let (step, lin) : ℝ × Bool :=
    match mode with
    | .onePt => (stepIn, true)
    | .linStep => (stepIn, true)
    | .linPts => (if stepIn ≤ 2 then 2 else stepIn, true)
    | .times => (if stepIn = 0 ∧ start ≠ 0 then stop / start else stepIn, false)
    | .octave => ((2.00000001 : ℝ) ^ (1 / (if stepIn = 0 then 1 else stepIn)), false)
    | .decade => ((10 : ℝ) ^ (1 / (if stepIn = 0 then 1 else stepIn)), false)
  if step = 0 then (stop - start, true) else (step, lin)

/-- What changes during a sweep of one level: `*_sweepval[Nest]` and `_reverse[Nest]` (`s_dc.cc:123,134`). -/
structure St where
  val : ℝ
  rev : Bool

open Classical in
/-- `DCOP::next`, `s_dc.cc:536-615`.  The result is the returned flag and the new state. -/
noncomputable def next (tol : ℝ) (l : Level) (s : St) : Bool × St :=
  if l.lin then
    let fudge := l.step / 10
    if l.step = 0 then (false, s)
    else
      let fw := fixzero tol (s.val + l.step) l.step
      let ok1 := !s.rev && inOrder (l.start - fudge) fw (l.stop + fudge)
      let rev := s.rev || (!ok1 && l.loop)
      if rev then
        let bw := fixzero tol (s.val - l.step) l.step
        if inOrder (l.start - fudge) bw (l.stop + fudge) then (true, ⟨bw, rev⟩) else (false, ⟨s.val, rev⟩)
      else if ok1 then (true, ⟨fw, rev⟩) else (false, ⟨s.val, rev⟩)
  else
    let fudge := l.step ^ (0.1 : ℝ)
    if l.step = 1 then (false, s)
    else
      let fw := s.val * l.step
      let ok1 := !s.rev && inOrder (l.start / fudge) fw (l.stop * fudge)
      let rev := s.rev || (!ok1 && l.loop)
      if rev then
        let bw := s.val / l.step
        if inOrder (l.start / fudge) bw (l.stop * fudge) then (true, ⟨bw, rev⟩) else (false, ⟨s.val, rev⟩)
      else if ok1 then (true, ⟨fw, rev⟩) else (false, ⟨s.val, rev⟩)

/-- `while (next(Nest)) {}`, `s_dc.cc:526-528`.  `none`: not finished after `fuel` calls. -/
def whileNext {σ : Type _} (nx : σ → Bool × σ) : Nat → σ → Option σ
  | 0, _ => none
  | fuel + 1, s => let r := nx s; if r.1 then whileNext nx fuel r.2 else some r.2

/-- `DCOP::first`, `s_dc.cc:515-534`. -/
noncomputable def first (tol : ℝ) (l : Level) (fuel : Nat) : Option St :=
  let s : St := ⟨l.start, false⟩
  if l.reverseIn then
    (whileNext (next tol l) fuel s).map fun s => (next tol l ⟨s.val, true⟩).2
  else some s

/-- `do { body } while (next(Nest));`, `s_dc.cc:494-512`, collecting what the body puts out. -/
def doWhile {σ ω : Type _} (body : σ → Option (σ × List ω)) (nx : σ → Bool × σ) : Nat → σ → Option (σ × List ω)
  | 0, _ => none
  | fuel + 1, s =>
    match body s with
    | none => none
    | some (s, out) =>
      let r := nx s
      if r.1 then (doWhile body nx fuel r.2).map fun q => (q.1, out ++ q.2) else some (r.2, out)

/-- The state of all levels. -/
abbrev Sts := Nat → St

/-- replace one level's state -/
def upd (s : Sts) (k : Nat) (x : St) : Sts := fun i => if i = k then x else s i

/-- `DCOP::sweep_recursive`, `s_dc.cc:485-513`; the argument of the C++ function is `n`, the body of level 0 records the
swept values of all `total` levels (the circuit is solved with these). -/
noncomputable def sweepRec (tol : ℝ) (ls : Nat → Level) (total fuel : Nat) : Nat → Sts → Option (Sts × List (List ℝ))
  | 0, s => some (s, [(List.range total).map fun k => (s k).val])
  | n + 1, s =>
    match first tol (ls n) fuel with
    | none => none
    | some x =>
      doWhile (sweepRec tol ls total fuel n) (fun s => let r := next tol (ls n) (s n); (r.1, upd s n r.2)) fuel (upd s n x)

/-- One level on its own: the values it takes. -/
noncomputable def visits (tol : ℝ) (l : Level) (fuel : Nat) : Option (List ℝ) :=
  match first tol l fuel with
  | none => none
  | some x => (doWhile (fun s => some (s, [s.val])) (next tol l) fuel x).map Prod.snd

/-! ### what is swept, and putting it back -/

/-- What the command names: `s_dc.cc:291-315`. -/
inductive Arg
  | element (e : Nat)      -- findbranch found an element
  | number                 -- sweep the generator
  | param (p : Nat)        -- a parameter with a hard value
  | other                  -- not a parameter, or nothing

/-- `_zap[i]` and `_param_name[i]` / `_param_zap[i]` (`s_dc.cc:124,126,128`). -/
structure Target (V : Type _) where
  zap : Option Nat
  param : Option (Nat × V)

/-- The choice in `DC::setup`, `s_dc.cc:291-315`; `val` are the current texts of the parameters. -/
def choose {V : Type _} (val : Nat → V) (t : Target V) : Arg → Target V
  | .element e => ⟨some e, none⟩
  | .number => ⟨none, t.param⟩
  | .param p => ⟨t.zap, some (p, val p)⟩
  | .other => t

/-- What `set_sweepval` writes to (`s_dc.cc:89-106`) given the pointers of `s_dc.cc:342-355`. -/
inductive Swept | param (p : Nat) | element (e : Nat) | generator
  deriving DecidableEq

def swept {V : Type _} (t : Target V) : Swept :=
  match t.param with
  | some (p, _) => .param p
  | none => match t.zap with
    | some e => .element e
    | none => .generator

/-- The elements' `_value` and attached common, and the parameters' texts. -/
structure World (C V : Type _) where
  elt : Nat → C
  par : Nat → V

/-- `DC::setup` `s_dc.cc:337-349` for one level: stash the element, attach control `i`.  The result is the stash. -/
def take {C V : Type _} (ctrl : Nat → C) (i : Nat) (t : Target V) (w : World C V) : Option (Nat × C) × World C V :=
  match t.zap with
  | some e => (some (e, w.elt e), { w with elt := fun k => if k = e then ctrl i else w.elt k })
  | none => (none, w)

/-- the loop `s_dc.cc:337-356` over the levels, from level `i` on -/
def takeAll {C V : Type _} (ctrl : Nat → C) : Nat → List (Target V) → World C V → List (Option (Nat × C)) × World C V
  | _, [], w => ([], w)
  | i, t :: ts, w =>
    let r := take ctrl i t w
    let q := takeAll ctrl (i + 1) ts r.2
    (r.1 :: q.1, q.2)

/-- `DCOP::finish` for one level, `s_dc.cc:220-237`; `CARDSTASH::restore`, `u_cardst.h:41-45`. -/
def putBack {C V : Type _} (t : Target V) (st : Option (Nat × C)) (w : World C V) : World C V :=
  match t.zap with
  | some _ =>
    match st with
    | some (e, c) => { w with elt := fun k => if k = e then c else w.elt k }
    | none => w
  | none =>
    match t.param with
    | some (p, v) => { w with par := fun k => if k = p then v else w.par k }
    | none => w

/-- `DCOP::finish`, `s_dc.cc:218-238`: level 0 first. -/
def finish {C V : Type _} : List (Target V) → List (Option (Nat × C)) → World C V → World C V
  | t :: ts, s :: ss, w => finish ts ss (putBack t s w)
  | _, _, w => w

/-- One `set_sweepval` seen from the outside: the parameter is overwritten, or the control's value (which is part of the
control, here unchanged as an identity), or the generator. -/
def setSweep {C V : Type _} (t : Target V) (v : V) (w : World C V) : World C V :=
  match t.param with
  | some (p, _) => { w with par := fun k => if k = p then v else w.par k }
  | none => w

/-! ### AC -/

/-- The numbers `AC::next` uses. -/
structure Ac where
  start : ℝ
  stop : ℝ
  step : ℝ
  lin : Bool

open Classical in
/-- `AC::setup`, `s_ac.cc:171-228`. -/
noncomputable def acSetup (mode : Mode) (start stop stepIn : ℝ) : Ac :=
  let (step, lin) : ℝ × Bool :=
    match mode with
    | .onePt => (stepIn, true)
    | .linStep => (stepIn, true)
    | .linPts => ((stop - start) / ((if stepIn ≤ 2 then 2 else stepIn) - 1), true)
    | .times => (if stepIn = 0 ∧ start ≠ 0 then stop / start else stepIn, false)
    | .octave => ((2.00000001 : ℝ) ^ (1 / (if stepIn = 0 then 1 else stepIn)), false)
    | .decade => ((10 : ℝ) ^ (1 / (if stepIn = 0 then 1 else stepIn)), false)
  if step = 0 then ⟨start, stop, stop - start, true⟩ else ⟨start, stop, step, lin⟩

/-- `AC::next`, `s_ac.cc:276-294`. -/
noncomputable def acNext (a : Ac) (freq : ℝ) : Bool × ℝ :=
  let realstop := if a.lin then a.stop - a.step / 100 else a.stop / a.step ^ (0.01 : ℝ)
  if !inOrder a.start freq realstop then (false, freq)
  else
    let freq := if a.lin then freq + a.step else freq * a.step
    if inOrder freq a.start a.stop then (false, freq) else (true, freq)

/-- `AC::sweep`, `s_ac.cc:254-269`: the frequencies solved at. -/
noncomputable def acVisits (a : Ac) (fuel : Nat) : Option (List ℝ) :=
  (doWhile (fun f => some (f, [f])) (acNext a) fuel a.start).map Prod.snd

end Gnucap.Sweep
