import Verif.TranSetModel
import Mathlib.Tactic.Linarith
import Mathlib.Tactic.Ring
import Mathlib.Tactic.FieldSimp
import Mathlib.Tactic.NormNum
import Mathlib.Tactic.Positivity
import Mathlib.Tactic.SplitIfs

/-!
# Arguments of the transient command (C55)
-/
set_option linter.unusedSectionVars false
namespace Gnucap.TranSet
variable {F : Type _} [Field F] [LinearOrder F] [IsStrictOrderedRing F]

theorem eval_hard (p : Par F) (d : F) : (p.eval d).hard = p.hard := by
  unfold Par.eval; split <;> simp_all

/-- what `finish` gives when it does not give an error -/
theorem finish_some {c : Cfg F} {cold : Bool} {s : St F} {s' : St F} {r : Run F} (h : finish c cold s = (s', some r)) :
    0 ≤ r.start ∧ r.start < r.stop ∧ 0 < r.strobe ∧ r.start = (s.start.eval 0).v ∧ r.stop = (s.stop.eval c.ni).v ∧
    (r.cont = true ↔ cold = false ∧ s.last ≤ r.start ∧ 0 < s.last) ∧ r.time1 = (if r.cont then s.last else 0) := by
  unfold finish at h
  simp only at h
  split at h
  · cases h
  · rename_i hb
    have hb' := not_or.mp hb
    have h1 := not_lt.mp hb'.1
    have h2 := not_le.mp hb'.2
    injection h with _ hr
    injection hr with hr
    subst hr
    refine ⟨h1, h2, ?_, rfl, rfl, ?_, ?_⟩
    · have hpos : 0 < (s.stop.eval c.ni).v - (s.start.eval 0).v := by linarith
      simp only
      split
      · simpa [Par.eval] using hpos
      · rename_i h3
        rcases hh : s.strobe.hard with _ | _
        · simpa [Par.eval, hh] using hpos
        · simpa [Par.eval, hh] using h3
    · simp only [Bool.not_eq_true', Bool.or_eq_false_iff, decide_eq_false_iff_not, not_lt, not_le, and_assoc]
    · simp only
      generalize (cold || decide ((s.start.eval 0).v < s.last) || decide (s.last ≤ 0)) = b
      cases b <;> rfl

/-- when it does not give an error -/
theorem finish_ok (c : Cfg F) (cold : Bool) (s : St F) (h0 : 0 ≤ (s.start.eval 0).v) (h1 : (s.start.eval 0).v < (s.stop.eval c.ni).v) :
    ∃ s' r, finish c cold s = (s', some r) ∧ s'.start = s.start.eval 0 ∧ s'.stop = s.stop.eval c.ni ∧ s'.last = s.last ∧
      (∀ h, s.strobe = .set h → 0 < h → r.strobe = h) := by
  have hc : ¬ ((s.start.eval 0).v < 0 ∨ (s.stop.eval c.ni).v ≤ (s.start.eval 0).v) := by
    rintro (h | h) <;> linarith
  unfold finish
  simp only
  rw [if_neg hc]
  refine ⟨_, _, rfl, rfl, rfl, rfl, ?_⟩
  intro h hs hp
  simp [hs, Par.eval, Par.set, not_le.mpr hp]

/-- **C55, times**: whatever the arguments, the options and the state, `setup` gives an error, or a run with
`0 ≤ start < stop`, a positive strobe period and a beginning of the simulation not after `start`. -/
theorem setup_times (c : Cfg F) (first : Bool) (l : List F) (o : Opts F) (s : St F) (s' : St F) (r : Run F)
    (h : setup c first l o s = (s', some r)) :
    0 ≤ r.start ∧ r.start < r.stop ∧ 0 < r.strobe ∧ 0 ≤ r.time1 ∧ r.time1 ≤ r.start := by
  obtain ⟨h1, h2, h3, -, -, h6, h7⟩ := finish_some h
  refine ⟨h1, h2, h3, ?_, ?_⟩
  · rw [h7]; split
    · rename_i hc; exact (h6.mp hc).2.2.le
    · exact le_rfl
  · rw [h7]; split
    · rename_i hc; exact (h6.mp hc).2.1
    · exact h1

/-- the option's value in effect: given now, given before, or none -/
def given (p : Par F) (o : Option F) : Option F := o.or (if p.hard then some p.v else none)

theorem over_hard (p : Par F) (o : Option F) (d : F) :
    (((over p o).eval d).hard = (given p o).isSome) ∧ ((over p o).eval d).v = (given p o).getD d := by
  cases o with
  | some x => simp [over, given, Par.set, Par.eval]
  | none =>
    rcases hp : p.hard with _ | _ <;> simp [over, given, Par.eval, hp]

/-- `dtmax` before the fourth number is looked at: it is `args` that may set it -/
def dtmaxOf (c : Cfg F) (first : Bool) (l : List F) (s : St F) : Par F := (args (prepare c first s) l).dtmaxIn

theorem args_fields (s : St F) (l : List F) :
    (args s l).dtminIn = s.dtminIn ∧ (args s l).dtratioIn = s.dtratioIn ∧ (args s l).skipIn = s.skipIn ∧ (args s l).last = s.last := by
  unfold args
  split
  · split_ifs <;> split <;> exact ⟨rfl, rfl, rfl, rfl⟩
  · split_ifs <;> exact ⟨rfl, rfl, rfl, rfl⟩
  · split_ifs <;> exact ⟨rfl, rfl, rfl, rfl⟩
  · exact ⟨rfl, rfl, rfl, rfl⟩

theorem finish_steps {c : Cfg F} {cold : Bool} {s : St F} {s' : St F} {r : Run F} (h : finish c cold s = (s', some r)) :
    r.dtmax = (if s.dtmaxIn.hard then s.dtmaxIn.v else if s.skipIn.hard then r.strobe / s.skipIn.v else min s.dtmaxIn.v r.strobe) ∧
    r.dtmin = (if s.dtminIn.hard then s.dtminIn.v else if s.dtratioIn.hard then r.dtmax / s.dtratioIn.v
      else max s.dtminIn.v (r.dtmax / s.dtratioIn.v)) := by
  unfold finish at h
  simp only at h
  split at h
  · cases h
  · injection h with _ hr
    injection hr with hr
    subst hr
    exact ⟨rfl, rfl⟩

/-- how the step limits come out -/
theorem setup_steps_eq (c : Cfg F) (first : Bool) (l : List F) (o : Opts F) (s : St F) (s' : St F) (r : Run F)
    (h : setup c first l o s = (s', some r)) :
    r.dtmax = (match given (dtmaxOf c first l s) o.dtmax, given s.skipIn o.skip with
      | some d, _ => d
      | none, some k => r.strobe / k
      | none, none => min c.big r.strobe) ∧
    r.dtmin = (match given s.dtminIn o.dtmin, given s.dtratioIn o.dtratio with
      | some d, _ => d
      | none, some q => r.dtmax / q
      | none, none => max c.dtmin (r.dtmax / c.dtratio)) := by
  obtain ⟨a1, a2, a3, -⟩ := args_fields (prepare c first s) l
  have o1 := over_hard (dtmaxOf c first l s) o.dtmax c.big
  have o2 := over_hard s.dtminIn o.dtmin c.dtmin
  have o3 := over_hard s.dtratioIn o.dtratio c.dtratio
  have o4 := over_hard s.skipIn o.skip 1
  obtain ⟨e1, e2⟩ := finish_steps h
  have p1 : (options c o (args (prepare c first s) l)).dtmaxIn = (over (dtmaxOf c first l s) o.dtmax).eval c.big := rfl
  have p2 : (options c o (args (prepare c first s) l)).dtminIn = (over s.dtminIn o.dtmin).eval c.dtmin := by
    simp only [options]; rw [a1]; rfl
  have p3 : (options c o (args (prepare c first s) l)).dtratioIn = (over s.dtratioIn o.dtratio).eval c.dtratio := by
    simp only [options]; rw [a2]; rfl
  have p4 : (options c o (args (prepare c first s) l)).skipIn = (over s.skipIn o.skip).eval 1 := by
    simp only [options]; rw [a3]; rfl
  rw [p1, p4, o1.1, o1.2, o4.1, o4.2] at e1
  rw [p2, p3, o2.1, o2.2, o3.1, o3.2] at e2
  refine ⟨e1.trans ?_, e2.trans ?_⟩
  · generalize given _ o.dtmax = g1
    cases g1
    · generalize given _ o.skip = g2
      cases g2 <;> simp
    · simp
  · generalize given _ o.dtmin = g1
    cases g1
    · generalize given _ o.dtratio = g2
      cases g2 <;> simp
    · simp

/-- **C55, step limits, partial**: with sensible given values (positive, at least one step per strobe period, a ratio of at least
1, smallest step not above the largest) we have `0 < dtmin ≤ dtmax`, and `dtmax ≤ strobe` unless `dtmax` is given.
Not always `strobe ≤ stop − start` (`strobe_longer_than_run`), and `dtmin ≤ dtmax` needs the assumption (`dtmin_above_dtmax`). -/
theorem setup_steps_partial (c : Cfg F) (first : Bool) (l : List F) (o : Opts F) (s : St F) (s' : St F) (r : Run F)
    (h : setup c first l o s = (s', some r)) (hb : 0 < c.big) (hm : 0 < c.dtmin) (hq : 1 ≤ c.dtratio)
    (h1 : ∀ d, given (dtmaxOf c first l s) o.dtmax = some d → 0 < d)
    (h2 : ∀ k, given s.skipIn o.skip = some k → 1 ≤ k)
    (h3 : ∀ d, given s.dtminIn o.dtmin = some d → 0 < d ∧ d ≤ r.dtmax)
    (h4 : ∀ q, given s.dtratioIn o.dtratio = some q → 1 ≤ q)
    (h5 : given s.dtminIn o.dtmin = none → given s.dtratioIn o.dtratio = none → c.dtmin ≤ r.dtmax) :
    0 < r.dtmin ∧ r.dtmin ≤ r.dtmax ∧ (given (dtmaxOf c first l s) o.dtmax = none → r.dtmax ≤ r.strobe) := by
  obtain ⟨e1, e2⟩ := setup_steps_eq c first l o s s' r h
  have hs := (setup_times c first l o s s' r h).2.2.1
  have hmax : 0 < r.dtmax ∧ (given (dtmaxOf c first l s) o.dtmax = none → r.dtmax ≤ r.strobe) := by
    generalize given (dtmaxOf c first l s) o.dtmax = g1 at *
    generalize given s.skipIn o.skip = g2 at *
    rcases g1 with _ | d
    · rcases g2 with _ | k
      · simp only at e1
        rw [e1]; exact ⟨lt_min hb hs, fun _ => min_le_right _ _⟩
      · simp only at e1
        have hk := h2 k rfl
        rw [e1]
        exact ⟨div_pos hs (by linarith), fun _ => div_le_self hs.le hk⟩
    · simp only at e1
      rw [e1]; exact ⟨h1 d rfl, fun hc => by cases hc⟩
  refine ⟨?_, ?_, hmax.2⟩
  · generalize given s.dtminIn o.dtmin = g1 at *
    generalize given s.dtratioIn o.dtratio = g2 at *
    rcases g1 with _ | d
    · rcases g2 with _ | q
      · simp only at e2; rw [e2]; exact lt_max_of_lt_left hm
      · simp only at e2; rw [e2]; exact div_pos hmax.1 (by linarith [h4 q rfl])
    · simp only at e2; rw [e2]; exact (h3 d rfl).1
  · generalize given s.dtminIn o.dtmin = g1 at *
    generalize given s.dtratioIn o.dtratio = g2 at *
    rcases g1 with _ | d
    · rcases g2 with _ | q
      · simp only at e2; rw [e2]
        exact max_le (h5 rfl rfl) (div_le_self hmax.1.le hq)
      · simp only at e2; rw [e2]; exact div_le_self hmax.1.le (h4 q rfl)
    · simp only at e2; rw [e2]; exact (h3 d rfl).2

/-! ### what the numbers mean -/

/-- (specification) the run a user wants: from `a` to `b`, output every `h` -/
structure Want (F : Type _) where
  a : F
  b : F
  h : F

def Want.Good (w : Want F) : Prop := 0 ≤ w.a ∧ w.a < w.b ∧ 0 < w.h

/-- the run is the wanted one -/
def gives (c : Cfg F) (first : Bool) (l : List F) (s : St F) (w : Want F) : Prop :=
  ∃ s' r, setup c first l {} s = (s', some r) ∧ r.start = w.a ∧ r.stop = w.b ∧ r.strobe = w.h

theorem gives_of {c : Cfg F} {first : Bool} {l : List F} {s : St F} {w : Want F} (hw : w.Good)
    (ha : ((args (prepare c first s) l).start.eval 0).v = w.a) (hb : (args (prepare c first s) l).stop = .set w.b)
    (hh : (args (prepare c first s) l).strobe = .set w.h) : gives c first l s w := by
  obtain ⟨w1, w2, w3⟩ := hw
  have hb' : ((args (prepare c first s) l).stop.eval c.ni).v = w.b := by rw [hb]; rfl
  obtain ⟨s', r, e, e1, e2, -, e4⟩ := finish_ok c false (options c {} (args (prepare c first s) l))
    (show 0 ≤ ((args (prepare c first s) l).start.eval 0).v by rw [ha]; exact w1)
    (show ((args (prepare c first s) l).start.eval 0).v < ((args (prepare c first s) l).stop.eval c.ni).v by rw [ha, hb']; exact w2)
  obtain ⟨-, -, -, f4, f5, -⟩ := finish_some e
  exact ⟨s', r, e, f4.trans ha, f5.trans hb', e4 w.h hh w3⟩

/-- **C55, three numbers in spice order** (step, stop, start) are understood when the start is 0 or not before the first step … -/
theorem three_spice (c : Cfg F) (first : Bool) (s : St F) (w : Want F) (hw : w.Good) (h : w.a = 0 ∨ w.h ≤ w.a) :
    gives c first [w.h, w.b, w.a] s w := by
  have hn : w.h ≠ 0 := hw.2.2.ne'
  apply gives_of hw <;>
  · rcases h with h | h
    · simp [args, h, Par.set, Par.eval]
    · have : w.a ≠ 0 := by have := hw.2.2; intro h0; linarith
      simp [args, this, hn, not_lt.mpr h, Par.set, Par.eval]

/-- … and in logical order (start, stop, step) when the start is 0 or after the first step. -/
theorem three_logical (c : Cfg F) (first : Bool) (s : St F) (w : Want F) (hw : w.Good) (h : w.a = 0 ∨ w.h < w.a) :
    gives c first [w.a, w.b, w.h] s w := by
  have hn : w.h ≠ 0 := hw.2.2.ne'
  apply gives_of hw <;>
  · rcases h with h | h
    · simp [args, h, hn, Par.set, Par.eval]
    · have : w.a ≠ 0 := by have := hw.2.2; intro h0; linarith
      simp [args, this, hn, h, Par.set, Par.eval]

/-- **C55, two numbers in spice order** (step, stop) start at 0. -/
theorem two_spice (c : Cfg F) (first : Bool) (s : St F) (b h : F) (h0 : 0 < h) (h1 : h < b) :
    gives c first [h, b] s ⟨0, b, h⟩ := by
  apply gives_of ⟨le_rfl, by linarith, h0⟩ <;> simp [args, h0.ne', not_le.mpr h1, Par.set, Par.eval]

/-- **C55, two numbers in logical order** (stop, step) continue the last run. -/
theorem two_logical (c : Cfg F) (s : St F) (b h : F) (h0 : 0 < h) (h1 : h ≤ b) (hl : 0 ≤ s.last) (h2 : s.last < b) :
    gives c false [b, h] s ⟨s.last, b, h⟩ := by
  have : b ≠ 0 := by linarith
  apply gives_of ⟨hl, h2, h0⟩ <;> simp [args, this, h1, prepare, Par.set, Par.eval]

/-- **C55, one number** after the last time is a new stop time; the run continues. -/
theorem one_stop (c : Cfg F) (s : St F) (b : F) (hl : 0 ≤ s.last) (h2 : s.last < b) :
    ∃ s' r, setup c false [b] {} s = (s', some r) ∧ r.start = s.last ∧ r.stop = b ∧ (r.cont = true ↔ 0 < s.last) ∧ r.time1 = s.last := by
  have e : setup c false [b] {} s = ((setup c false [b] {} s).1, (setup c false [b] {} s).2) := rfl
  rcases hx : (setup c false [b] {} s).2 with _ | r
  · exfalso
    unfold setup finish at hx
    simp [args, options, over, prepare, h2, Par.set, Par.eval, not_lt.mpr hl, not_le.mpr h2] at hx
  · rw [hx] at e
    obtain ⟨-, -, -, e4, e5, e6, e7⟩ := finish_some e
    have e4' : r.start = s.last := by rw [e4]; simp [args, options, over, prepare, h2, Par.set, Par.eval]
    have e5' : r.stop = b := by rw [e5]; simp [args, options, over, prepare, h2, Par.set, Par.eval]
    have el : (options c {} (args (prepare c false s) [b])).last = s.last := by
      simp only [options]; rw [(args_fields _ _).2.2.2]; rfl
    rw [el] at e6 e7
    refine ⟨_, r, e, e4', e5', ?_, ?_⟩
    · rw [e6, e4']; simp
    · rw [e7]; split
      · rfl
      · rename_i hc
        have : ¬ 0 < s.last := by rw [e6, e4'] at hc; simpa using hc
        linarith

/-- the run is over: `_last_time` is the stop time -/
def done (x : St F × Option (Run F)) : Option (St F × Run F) := x.2.map fun r => ({ x.1 with last := r.stop }, r)

/-- the command without arguments, `n` more times -/
def again (c : Cfg F) : ℕ → St F × Run F → Option (St F × Run F)
  | 0, x => some x
  | n + 1, x => (done (setup c false [] {} x.1)).bind (again c n)

/-- **C55, continuing**: after a run over `[a, b]` (both given), each further command without arguments goes on where the last one
stopped, for the same length of time, continuing the simulation. -/
theorem again_continues (c : Cfg F) (n : ℕ) (a b : F) (h0 : 0 ≤ a) (hab : a < b) (s : St F) (r : Run F)
    (hs : s.start = .set a) (hp : s.stop = .set b) (hl : s.last = b) :
    ∃ s' r', again c (n + 1) (s, r) = some (s', r') ∧ r'.start = b + n * (b - a) ∧ r'.stop = b + (n + 1) * (b - a) ∧
      r'.cont = true ∧ r'.time1 = r'.start := by
  induction n generalizing a b s r with
  | zero =>
    have hlt : b < b + (b - a) := by linarith
    have hnn : ¬ b < 0 := by linarith
    have hb0 : ¬ b ≤ 0 := by linarith
    unfold again done setup finish
    simp [args, options, over, prepare, hs, hp, hl, Par.set, Par.eval, hnn, not_le.mpr hlt, hb0, again, hab]
  | succ n ih =>
    have hlt : b < b + (b - a) := by linarith
    have hnn : ¬ b < 0 := by linarith
    have key : ∃ s1 r1, done (setup c false [] {} s) = some (s1, r1) ∧ s1.start = .set b ∧ s1.stop = .set (b + (b - a)) ∧
        s1.last = b + (b - a) := by
      have q1 : (options c {} (args (prepare c false s) [])).start = .set b := by simp [options, over, args, prepare, hl]
      have q2 : (options c {} (args (prepare c false s) [])).stop = .set (b + (b - a)) := by
        simp [options, over, args, prepare, hl, hs, hp, Par.eval, Par.set]
      obtain ⟨s', r', e, e1, e2, -, -⟩ := finish_ok c false (options c {} (args (prepare c false s) []))
        (by rw [q1]; exact not_lt.mp hnn) (by rw [q1, q2]; exact hlt)
      obtain ⟨-, -, -, -, f5, -⟩ := finish_some e
      refine ⟨{ s' with last := r'.stop }, r', ?_, ?_, ?_, ?_⟩
      · have : setup c false [] {} s = (s', some r') := e
        rw [done, this]; rfl
      · simp only [e1, q1]; rfl
      · simp only [e2, q2]; rfl
      · simp only [f5, q2]; rfl
    obtain ⟨s1, r1, k1, k2, k3, k4⟩ := key
    obtain ⟨s', r', g1, g2, g3, g4, g5⟩ := ih b (b + (b - a)) (by linarith) hlt s1 r1 k2 k3 k4
    refine ⟨s', r', ?_, ?_, ?_, g4, g5⟩
    · rw [again]; simp only; rw [k1]; exact g1
    · rw [g2]; push_cast; ring
    · rw [g3]; push_cast; ring

/-! ### examples and defects -/

theorem exists_of {α : Type} {x : Option α} (p : α → Bool) (h : x.any p = true) : ∃ a, x = some a ∧ p a = true := by
  cases x with
  | none => cases h
  | some a => exact ⟨a, rfl, h⟩

/-- smaller stand-ins for `NOT_INPUT` and `BIGBIG`; defaults of `dtmin` and `dtratio` as in the program -/
def cfg : Cfg ℚ := ⟨-10 ^ 300, 10 ^ 99, 1 / 10 ^ 12, 10 ^ 9⟩

example : gives cfg true [1 / 10, 1, 0] (St.new cfg) ⟨0, 1, 1 / 10⟩ :=
  three_spice cfg true _ ⟨0, 1, 1 / 10⟩ (by norm_num [Want.Good]) (Or.inl rfl)
example : gives cfg true [2, 3, 1 / 10] (St.new cfg) ⟨2, 3, 1 / 10⟩ :=
  three_logical cfg true _ ⟨2, 3, 1 / 10⟩ (by norm_num [Want.Good]) (Or.inr (by norm_num))
example : gives cfg true [1 / 10, 1] (St.new cfg) ⟨0, 1, 1 / 10⟩ := two_spice cfg true _ 1 (1 / 10) (by norm_num) (by norm_num)
example : gives cfg false [5, 1] { St.new cfg with last := 2 } ⟨2, 5, 1⟩ :=
  two_logical cfg { St.new cfg with last := 2 } 5 1 (by norm_num) (by norm_num) (by norm_num) (by norm_num)
example : ∃ s' r', again cfg 3 ({ St.new cfg with start := .set 0, stop := .set 2, last := 2 }, ⟨0, 2, 1, 1, 1, false, 0⟩) = some (s', r') ∧
    r'.start = 6 ∧ r'.stop = 8 := by
  obtain ⟨s', r', h1, h2, h3, -⟩ := again_continues cfg 2 0 2 (by norm_num) (by norm_num)
    { St.new cfg with start := .set 0, stop := .set 2, last := 2 } ⟨0, 2, 1, 1, 1, false, 0⟩ rfl rfl rfl
  exact ⟨s', r', h1, by rw [h2]; norm_num, by rw [h3]; norm_num⟩
/-- a run as `setup_times` and `setup_steps_partial` speak of -/
example : ((setup cfg true [0, 1, 1 / 10] {} (St.new cfg)).2.map fun r => (r.start, r.stop, r.strobe, r.dtmax, r.dtmin)) =
    some (0, 1, 1 / 10, 1 / 10, 1 / 10 ^ 10) := by decide +kernel
example : given (St.new cfg).dtminIn none = none ∧ given (dtmaxOf cfg true [0, 1, 1 / 10] (St.new cfg)) none = none := by decide +kernel
/-- without arguments the first time: an error -/
example : (setup cfg true [] {} (St.new cfg)).2.isNone = true := by decide +kernel

/-- **C55, ambiguity**: step 2, stop 5, start 1 in spice order is read as start 2, step 1. -/
theorem three_ambiguous : gives cfg true [2, 5, 1] (St.new cfg) ⟨2, 5, 1⟩ ∧ ¬ gives cfg true [2, 5, 1] (St.new cfg) ⟨1, 5, 2⟩ := by
  refine ⟨three_logical cfg true _ ⟨2, 5, 1⟩ (by norm_num [Want.Good]) (Or.inr (by norm_num)), ?_⟩
  rintro ⟨s', r, h, h1, -⟩
  have : (setup cfg true [2, 5, 1] {} (St.new cfg)).2.map Run.start = some 2 := by decide +kernel
  rw [h] at this
  simp only [Option.map_some, Option.some.injEq] at this
  rw [h1] at this
  norm_num at this

/-- **C55 is false for the strobe**: `tran 0 1 5` gives a strobe period and a largest step longer than the run. -/
theorem strobe_longer_than_run :
    ∃ s' r, setup cfg true [0, 1, 5] {} (St.new cfg) = (s', some r) ∧ r.stop - r.start = 1 ∧ r.strobe = 5 ∧ r.dtmax = 5 := by
  refine ⟨_, _, rfl, ?_, ?_, ?_⟩ <;> decide +kernel

/-- **C55 is false for the smallest step**: with a strobe period below `dtmin`, the smallest step is above the largest. -/
theorem dtmin_above_dtmax :
    ∃ r, (setup cfg true [0, 1 / 10 ^ 9, 1 / 10 ^ 13] {} (St.new cfg)).2 = some r ∧ r.dtmax < r.dtmin :=
  exists_of (fun r => decide (r.dtmax < r.dtmin)) (by decide +kernel) |>.imp fun _ h => ⟨h.1, of_decide_eq_true h.2⟩

/-- **C55 is false for continuing after spice order**: `tran .1 1` leaves the start a default, which the next command takes as
`NOT_INPUT` when it computes the old range: `tran` then runs (practically) forever instead of from 1 to 2. -/
theorem again_forever :
    ∃ x, done (setup cfg true [1 / 10, 1] {} (St.new cfg)) = some x ∧ (x.2.start = 0 ∧ x.2.stop = 1) ∧
      ∃ r, (setup cfg false [] {} x.1).2 = some r ∧ r.start = 1 ∧ 10 ^ 300 < r.stop := by
  obtain ⟨x, hx, h1, h2⟩ : ∃ x, done (setup cfg true [1 / 10, 1] {} (St.new cfg)) = some x ∧ (x.2.start = 0 ∧ x.2.stop = 1) ∧
      ((setup cfg false [] {} x.1).2.any fun r => decide (r.start = 1 ∧ 10 ^ 300 < r.stop)) = true :=
    exists_of (fun x => decide (x.2.start = 0 ∧ x.2.stop = 1) &&
      ((setup cfg false [] {} x.1).2.any fun r => decide (r.start = 1 ∧ 10 ^ 300 < r.stop))) (by decide +kernel)
      |>.imp fun _ h => ⟨h.1, of_decide_eq_true (Bool.and_eq_true_iff.mp h.2).1, (Bool.and_eq_true_iff.mp h.2).2⟩
  exact ⟨x, hx, h1, exists_of _ h2 |>.imp fun _ h => ⟨h.1, of_decide_eq_true h.2⟩⟩

/-- **C55, zero steps**: `skip` 0 is accepted; the largest step is then the strobe period over 0. -/
example : given (St.new cfg).skipIn (some 0) = some 0 := rfl

end Gnucap.TranSet
