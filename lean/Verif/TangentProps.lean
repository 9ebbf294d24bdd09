import Mathlib.Analysis.Calculus.FDeriv.Mul
import Mathlib.Analysis.Calculus.Deriv.Inv
import Mathlib.Analysis.Calculus.Deriv.Mul
import Mathlib.Analysis.Calculus.Deriv.Prod
import Verif.TangentModel
import Verif.CoilProps

/-!
# C62: what an element loads is its law, linearised where it was evaluated

Specification: the law of the element as a current in terms of the voltages, and the straight line (or plane) that touches it.
`ideal` is the law of an element with a plain value.
-/
set_option linter.unusedSectionVars false
set_option linter.unusedSimpArgs false
namespace Gnucap.Tangent
open Gnucap.Integ Gnucap.Mat Gnucap.Load Gnucap.Elem Gnucap.Coil

section
variable {F : Type _} [Field F] [LinearOrder F] [IsStrictOrderedRing F]

/-- the current the sensed element carries at the controlling voltage `u`: of a coupled coil, the unknown of its current node -/
def Sense.current : Sense F → F → F
  | .inode, u => u
  | .iv loss c0 c1, u => (loss + c1) * u + c0

/-! ## the line is the tangent -/

/-- Resistor, `v = f(i)`: after an evaluation the points of the line are those with `v = f(x) + f'(x) (i - x)`, where `x` is
the current the line had at the new voltage, or where the function says it was evaluated. -/
theorem res_line (d : Desc F) (hc : d.cls = .res) (g : F → FPoly F) (hf : d.fn = some g) (hs : 0 < d.short) (a : Ext F) (s : Elt F)
    (h0 : s.loss0 = 0)
    (hx : d.short ≤ |(g (s.amps a.vin a.vin)).f1|) (u i : F) :
    let x := s.amps a.vin a.vin
    i = (s.eval d a).amps u u ↔ u = (g x).f0 + (g x).f1 * (i - (g x).x) := by
  intro x
  have hxe : s.m0.c0 + s.m0.c1 * a.vin = x := by simp only [x, Elt.amps, h0]; ring
  have hne : (g x).f1 ≠ 0 := by
    intro h
    change d.short ≤ |(g x).f1| at hx
    rw [h, abs_zero] at hx
    exact absurd hs (not_lt.2 hx)
  have hcl : clampRes d.short (trEval d s.value x) = g x := by
    rcases le_abs.1 hx with h | h
    · have h' : (g x).f1 ≥ d.short := h
      simp only [clampRes, trEval, hf, if_pos h']
    · have h' : (g x).f1 ≤ -d.short := by
        have : d.short ≤ -(g x).f1 := h
        linarith
      have h2 : ¬ (g x).f1 ≥ d.short := by linarith
      simp only [clampRes, trEval, hf, if_pos h', if_neg h2]
  have hu : d.using = true := by simp [Desc.using, hf]
  simp only [Elt.eval, hc, hu, if_true, hxe, hcl, Elt.amps, h0]
  constructor
  · intro h; rw [h]; field_simp; ring
  · intro h; rw [h]; field_simp; ring

/-- The slope of a resistor never gets closer to zero than `shortckt`: the conductance stays finite and keeps its sign. -/
theorem res_slope (d : Desc F) (hc : d.cls = .res) (g : F → FPoly F) (hf : d.fn = some g) (hs : 0 < d.short) (a : Ext F)
    (s : Elt F) (h0 : s.loss0 = 0) :
    let f1 := (g (s.amps a.vin a.vin)).f1
    let t := s.eval d a
    d.short ≤ |t.y.f1| ∧ t.m0.c1 * t.y.f1 = 1 ∧ (0 ≤ f1 → 0 < t.m0.c1) ∧ (f1 < 0 → t.m0.c1 < 0) := by
  intro f1 t
  have hxe : s.m0.c0 + s.m0.c1 * a.vin = s.amps a.vin a.vin := by simp only [Elt.amps, h0]; ring
  have hu : d.using = true := by simp [Desc.using, hf]
  have hy : t.y = clampRes d.short (g (s.amps a.vin a.vin)) := by
    simp only [t, Elt.eval, hc, hu, if_true, hxe, trEval, hf, f1]
  have hm : t.m0.c1 = 1 / t.y.f1 := by simp only [t, Elt.eval, hc, hu, if_true]
  have key : d.short ≤ |t.y.f1| ∧ (0 ≤ f1 → 0 < t.y.f1) ∧ (f1 < 0 → t.y.f1 < 0) := by
    rw [hy]
    unfold clampRes
    split
    · rename_i h
      exact ⟨le_trans h (le_abs_self _), fun _ => lt_of_lt_of_le hs h, fun hh => absurd (lt_of_lt_of_le hs h) (not_lt.2 hh.le)⟩
    · split
      · rename_i h
        exact ⟨le_abs.2 (Or.inr (by linarith)), fun hh => by linarith, fun hh => hh⟩
      · split
        · rename_i h
          exact ⟨le_abs_self _, fun _ => hs, fun hh => absurd hh (not_lt.2 h)⟩
        · rename_i h
          exact ⟨by simp [le_abs_self], fun hh => absurd hh h, fun _ => by simpa using hs⟩
  have hne : t.y.f1 ≠ 0 := by
    intro h; rw [h, abs_zero] at key; exact absurd hs (not_lt.2 key.1)
  refine ⟨key.1, by rw [hm]; field_simp, fun h => ?_, fun h => ?_⟩
  · rw [hm]; exact one_div_pos.2 (key.2.1 h)
  · rw [hm]; exact one_div_neg.2 (key.2.2 h)

/-- Admittance and VCCS: `i = f(v)`. -/
theorem adm_line (d : Desc F) (hc : d.cls = .adm ∨ d.cls = .vccs) (g : F → FPoly F) (hf : d.fn = some g) (a : Ext F) (s : Elt F)
    (h0 : s.loss0 = 0) (u w : F) :
    (s.eval d a).amps u w = (g a.vin).f0 + (g a.vin).f1 * (u - (g a.vin).x) := by
  have hu : d.using = true := by simp [Desc.using, hf]
  rcases hc with hc | hc <;>
    simp only [Elt.eval, hc, hu, if_true, Elt.amps, h0, trEval, hf, FPoly.toC] <;> ring

/-- VCVS: the output voltage misses the linearised law by `shortckt` times the current. -/
theorem vcvs_line (d : Desc F) (hc : d.cls = .vcvs) (g : F → FPoly F) (hf : d.fn = some g) (hs : 0 < d.short) (a : Ext F) (s : Elt F)
    (h0 : s.loss0 = 1 / d.short) (u w : F) :
    w - ((g a.vin).f0 + (g a.vin).f1 * (u - (g a.vin).x)) = d.short * (s.eval d a).amps u w := by
  have hu : d.using = true := by simp [Desc.using, hf]
  have hs' := hs.ne'
  simp only [Elt.eval, hc, hu, if_true, Elt.amps, h0, trEval, hf, FPoly.toC, CPoly.scale]
  field_simp
  ring

/-- Voltage source: the output voltage misses the value of the source by `shortckt` times the current. -/
theorem vs_line (d : Desc F) (hc : d.cls = .vs) (g : F → FPoly F) (hf : d.fn = some g) (hs : 0 < d.short) (a : Ext F) (s : Elt F)
    (h0 : s.loss0 = 1 / d.short) (h1 : s.m0.c1 = 0) (u w : F) :
    w - (g a.time).f1 = d.short * (s.eval d a).amps u w := by
  have hu : d.using = true := by simp [Desc.using, hf]
  have hs' := hs.ne'
  simp only [Elt.eval, hc, hu, if_true, Elt.amps, h0, h1, trEval, hf]
  field_simp
  ring

theorem cs_line (d : Desc F) (hc : d.cls = .cs) (g : F → FPoly F) (hf : d.fn = some g) (a : Ext F) (s : Elt F)
    (h0 : s.loss0 = 0) (h1 : s.m0.c1 = 0) (u w : F) :
    (s.eval d a).amps u w = (g a.time).f1 := by
  have hu : d.using = true := by simp [Desc.using, hf]
  simp only [Elt.eval, hc, hu, if_true, Elt.amps, h0, h1, trEval, hf]
  ring

/-- CCCS: `i = f(j)` linearised at the sensed current, and the sensed current taken from the sensed element's line. -/
theorem cccs_line (d : Desc F) (hc : d.cls = .cccs) (g : F → FPoly F) (hf : d.fn = some g) (a : Ext F) (s : Elt F)
    (h0 : s.loss0 = 0) (u w : F) :
    (s.eval d a).amps u w = (g a.amps).f0 + (g a.amps).f1 * (a.sense.current u - (g a.amps).x) := by
  have hu : d.using = true := by simp [Desc.using, hf]
  simp only [Elt.eval, hc, hu, if_true, Elt.amps, h0, trEval, hf, FPoly.toC]
  cases a.sense <;> simp only [addSense, Sense.current] <;> ring

/-- CCVS, the same for a voltage. -/
theorem ccvs_line (d : Desc F) (hc : d.cls = .ccvs) (g : F → FPoly F) (hf : d.fn = some g) (hs : 0 < d.short) (a : Ext F) (s : Elt F)
    (h0 : s.loss0 = 1 / d.short) (u w : F) :
    w - ((g a.amps).f0 + (g a.amps).f1 * (a.sense.current u - (g a.amps).x)) = d.short * (s.eval d a).amps u w := by
  have hu : d.using = true := by simp [Desc.using, hf]
  have hs' := hs.ne'
  simp only [Elt.eval, hc, hu, if_true, Elt.amps, h0, trEval, hf, FPoly.toC]
  cases a.sense <;> simp only [addSense, Sense.current, CPoly.scale] <;> field_simp <;> ring

/-- VCG: exact on the output voltage, and in the controlling voltage linearised at the output voltage. -/
theorem vcg_line (d : Desc F) (hc : d.cls = .vcg) (g : F → FPoly F) (hf : d.fn = some g) (a : Ext F) (s : Elt F) (u w : F) :
    (s.eval d a).amps u w = (g a.vin).f0 * w + (g a.vin).f1 * a.vout * (u - (g a.vin).x) := by
  simp only [Elt.eval, hc, Elt.amps, trEval, hf]
  ring

theorem vcr_line (d : Desc F) (hc : d.cls = .vcr) (g : F → FPoly F) (hf : d.fn = some g) (a : Ext F) (s : Elt F)
    (hne : (g a.vin).f0 ≠ 0) (u w : F) :
    (s.eval d a).amps u w = w / (g a.vin).f0 - (g a.vin).f1 / (g a.vin).f0 ^ 2 * a.vout * (u - (g a.vin).x) := by
  simp only [Elt.eval, hc, Elt.amps, trEval, hf, if_neg hne]
  field_simp
  ring

/-- An iteration that is damped loads a mixture of what was loaded before and the new line. -/
theorem damped_line (d : Desc F) (damp : F) (s : Elt F) (h0 : s.loss0 = s.loss1) (h1 : s.m0.c1 = s.m1.c1 ∨ (d.cls ≠ .vs ∧ d.cls ≠ .cs))
    (u w : F) :
    (s.load d false damp).amps u w =
      (1 - damp) * (s.loss1 * w + s.m1.c1 * u + s.m1.c0) + damp * s.amps u w := by
  rcases h1 with h1 | h1
  · rcases hc : d.cls <;> simp only [Elt.load, hc, dampTo, Elt.amps, h0, h1, Bool.false_eq_true, if_false] <;> ring
  · rcases hc : d.cls <;> first | exact absurd hc h1.1 | exact absurd hc h1.2 |
      (simp only [Elt.load, hc, dampTo, Elt.amps, h0, Bool.false_eq_true, if_false]; ring)

/-! ## rows of the equations -/

/-- where each class is connected: the device of `Elem.Dev` with the same loads -/
def Cls.dev (o1 o2 i1 i2 : ℕ) : Cls → Dev
  | .res => .resistor o1 o2 | .adm => .admittance o1 o2 | .vccs => .vccs o1 o2 i1 i2 | .vcvs => .vcvs o1 o2 i1 i2
  | .vs => .voltageSource o1 o2 | .cs => .currentSource o1 o2 | .vcg => .vcg o1 o2 i1 i2 | .vcr => .vcr o1 o2 i1 i2
  | .cccs => .cccs o1 o2 i1 i2 | .ccvs => .ccvs o1 o2 i1 i2

theorem loads_kinds (c : Cls) (mf : F) (o1 o2 i1 i2 : ℕ) (s : Elt F) :
    (s.loads c mf o1 o2 i1 i2).map Prod.fst = (c.dev o1 o2 i1 i2).trLoads := by
  cases c <;> rfl

/-- is the controlling voltage the element's own? -/
def Cls.own : Cls → Bool
  | .res | .adm => true
  | _ => false

/-- The rows of its two output nodes get the element's current, `mfactor` times, with opposite signs; other rows nothing. -/
theorem element_row (n : ℕ) (c : Cls) (mf : F) (o1 o2 i1 i2 : ℕ) (h1 : o1 ≤ n) (h2 : o2 ≤ n) (h3 : i1 ≤ n) (h4 : i2 ≤ n)
    (hown : c.own = true → i1 = o1 ∧ i2 = o2) (s : Elt F)
    (hl : c = .res ∨ c = .adm ∨ c = .vccs ∨ c = .cccs ∨ c = .cs → s.loss0 = 0) (hcc : c = .vs ∨ c = .cs → s.m0.c1 = 0)
    (r : ℕ) (x : ℕ → F) :
    residual n (s.loads c mf o1 o2 i1 i2) r x =
      (inc o1 r - inc o2 r) * (mf * s.amps (volt x i1 - volt x i2) (volt x o1 - volt x o2)) := by
  cases c <;>
    simp only [Elt.loads, residual_cons, residual_nil, coefM, coefI, zero_mul, Finset.sum_const_zero, sub_zero, zero_sub] <;>
    (try rw [sum_diff n o1 o2 h1 h2]) <;> (try rw [sum_diff n i1 i2 h3 h4]) <;>
    simp only [Elt.amps] <;>
    first
      | (have ho := hown rfl; rw [ho.1, ho.2, hl (by decide)]; ring)
      | (rw [hl (by decide), hcc (by decide)]; ring)
      | (rw [hl (by decide)]; ring)
      | (rw [hcc (by decide)]; ring)
      | ring

/-! ## elements with a plain value, over a whole sweep -/

/-- the law of an element with a plain value -/
def ideal (short v : F) : Cls → F → F → F
  | .res, u, _ => u / (if |v| < short then short else v)
  | .adm, u, _ => v * u
  | .vccs, u, _ => v * u
  | .vcvs, u, w => (w - v * u) / short
  | .vs, _, w => (w - v) / short
  | _, _, _ => v

/-- the classes whose plain form is constant between parameter changes -/
def Cls.plain : Cls → Bool
  | .res | .adm | .vccs | .vcvs | .vs | .cs => true
  | _ => false

/-- the value an element with a plain value works with -/
def eff (d : Desc F) (v : F) : F := match d.cls with
  | .res => resValue d.short v
  | _ => v

/-- `m` and `l` are the line of class `c` for the value `e` -/
def IsLine (d : Desc F) (e : F) (m : CPoly F) (l : F) : Prop :=
  match d.cls with
  | .res => l = 0 ∧ m.c0 = 0 ∧ m.c1 = 1 / e
  | .adm | .vccs => l = 0 ∧ m.c0 = 0 ∧ m.c1 = e
  | .vcvs => l = 1 / d.short ∧ m.c0 = 0 ∧ m.c1 = -(1 / d.short) * e
  | .vs => l = 1 / d.short ∧ m.c0 = -(1 / d.short) * e ∧ m.c1 = 0
  | .cs => l = 0 ∧ m.c0 = e ∧ m.c1 = 0
  | _ => False

/-- what holds of a plain element between two points of a sweep -/
structure Settled (d : Desc F) (s : Elt F) : Prop where
  line : IsLine d s.y1.f1 s.m0 s.loss0
  same : s.m1 = s.m0
  loss : s.loss1 = s.loss0

/-- ... and within a point, with the value `v` -/
structure At (d : Desc F) (v : F) (s : Elt F) : Prop where
  line : IsLine d (eff d v) s.m0 s.loss0
  eff1 : s.y1.f1 = eff d v
  loss : s.loss1 = s.loss0

theorem settled_begin (d : Desc F) (hp : d.cls.plain = true) (v : F) : Settled d ((Elt.new v).begin d) := by
  rcases hc : d.cls <;> rw [hc] at hp <;> first | exact absurd hp (by decide) | skip
  all_goals
    constructor <;>
      simp only [Elt.begin, hc, Elt.beginBase, Elt.new, IsLine] <;> simp

theorem at_advance (d : Desc F) (hp : d.cls.plain = true) (hu : d.using = false) (v : F) (s : Elt F) (h : Settled d s) :
    At d v ((s.precalc v).dcAdvance d) := by
  obtain ⟨hl, hm, hls⟩ := h
  rcases hc : d.cls <;> rw [hc] at hp <;> first | exact absurd hp (by decide) | skip
  all_goals
    simp only [IsLine, hc] at hl
    obtain ⟨l1, l2, l3⟩ := hl
    rcases eq_or_ne s.y1.f1 (eff d v) with he | he
    · have he2 : eff d v = s.y1.f1 := he.symm
      simp only [eff, hc] at he he2
      constructor <;> simp [Elt.dcAdvance, hu, hc, Elt.precalc, IsLine, eff, he, l1, l2, l3, hls]
    · have he2 := he.symm
      simp only [eff, hc] at he he2
      constructor <;> simp [Elt.dcAdvance, hu, hc, Elt.precalc, IsLine, eff, he, he2, l1, l2, l3, hls]

theorem eval_plain (d : Desc F) (hp : d.cls.plain = true) (hu : d.using = false) (a : Ext F) (s : Elt F) : s.eval d a = s := by
  rcases hc : d.cls <;> rw [hc] at hp <;> first | exact absurd hp (by decide) | skip
  all_goals simp only [Elt.eval, hc, hu, Bool.false_eq_true, if_false]

theorem load_first (d : Desc F) (hp : d.cls.plain = true) (damp v : F) (s : Elt F) (h : At d v s) :
    At d v (s.load d true damp) ∧ (s.load d true damp).m1 = (s.load d true damp).m0 := by
  obtain ⟨hl, he, hls⟩ := h
  rcases hc : d.cls <;> rw [hc] at hp <;> first | exact absurd hp (by decide) | skip
  all_goals
    simp only [IsLine, hc] at hl
    refine ⟨⟨?_, ?_, ?_⟩, ?_⟩ <;> simp_all [Elt.load, dampTo, IsLine, eff]

theorem load_next (d : Desc F) (hp : d.cls.plain = true) (damp v : F) (s : Elt F) (h : At d v s) (hm : s.m1 = s.m0) :
    At d v (s.load d false damp) ∧ (s.load d false damp).m1 = (s.load d false damp).m0 := by
  obtain ⟨hl, he, hls⟩ := h
  rcases hc : d.cls <;> rw [hc] at hp <;> first | exact absurd hp (by decide) | skip
  all_goals
    simp only [IsLine, hc] at hl
    refine ⟨⟨?_, ?_, ?_⟩, ?_⟩ <;> simp_all [Elt.load, dampTo, IsLine, eff]

theorem at_point (d : Desc F) (hp : d.cls.plain = true) (hu : d.using = false) (v : F) (it : Ext F × F) (its : List (Ext F × F))
    (s : Elt F) (h : Settled d s) :
    At d v (s.point d v (it :: its)) ∧ (s.point d v (it :: its)).m1 = (s.point d v (it :: its)).m0 := by
  have h0 := at_advance d hp hu v s h
  have h1 : At d v (((s.precalc v).dcAdvance d).iter d true it) ∧
      (((s.precalc v).dcAdvance d).iter d true it).m1 = (((s.precalc v).dcAdvance d).iter d true it).m0 := by
    rw [Elt.iter, eval_plain d hp hu]
    exact load_first d hp it.2 v _ h0
  simp only [Elt.point]
  generalize hq : ((s.precalc v).dcAdvance d).iter d true it = q at h1
  clear hq
  induction its generalizing q with
  | nil => exact h1
  | cons i2 rest ih =>
    have h2 : At d v (q.iter d false i2) ∧ (q.iter d false i2).m1 = (q.iter d false i2).m0 := by
      rw [Elt.iter, eval_plain d hp hu]
      exact load_next d hp i2.2 v _ h1.1 h1.2
    exact ih _ h2

theorem settled_of_at (d : Desc F) (v : F) (s : Elt F) (h : At d v s) (hm : s.m1 = s.m0) : Settled d s :=
  ⟨h.eff1 ▸ h.line, hm, h.loss⟩

theorem sweep_settled (d : Desc F) (hp : d.cls.plain = true) (hu : d.using = false) (pts : List (F × List (Ext F × F)))
    (hpts : ∀ p ∈ pts, p.2 ≠ []) (s : Elt F) (h : Settled d s) :
    Settled d (pts.foldl (fun s p => s.point d p.1 p.2) s) := by
  induction pts generalizing s with
  | nil => exact h
  | cons p rest ih =>
    obtain ⟨v, its⟩ := p
    rcases its with _ | ⟨it, its⟩
    · exact absurd rfl (hpts (v, []) (by simp))
    · have := at_point d hp hu v it its s h
      exact ih (fun p hp => hpts p (List.mem_cons_of_mem _ hp)) _ (settled_of_at d v _ this.1 this.2)

/-- Right after `tr_begin`, before any evaluation, an element with a plain value has the line of its law: a resistor that is
too small is a short circuit of positive sign. -/
theorem plain_begin (d : Desc F) (hp : d.cls.plain = true) (hs : 0 < d.short) (v u w : F) :
    ((Elt.new v).begin d).amps u w = ideal d.short v d.cls u w := by
  rcases hc : d.cls <;> rw [hc] at hp <;> first | exact absurd hp (by decide) | skip
  · simp only [Elt.begin, Elt.beginBase, Elt.new, Elt.amps, ideal, hc]
    by_cases h0 : v = 0
    · simp [h0, hs]; ring
    · by_cases h1 : |v| < d.short
      · simp [h0, h1]; ring
      · simp [h0, h1]; ring
  all_goals
    simp only [Elt.begin, Elt.beginBase, Elt.new, Elt.amps, ideal, hc]
    ring

/-- C62, DC sweeps: whatever was swept before and however many iterations were made, damped or not, an element with a plain
value loads the law of the value it has now. -/
theorem plain_sweep (d : Desc F) (hp : d.cls.plain = true) (hu : d.using = false) (hs : 0 < d.short) (v0 : F)
    (pts : List (F × List (Ext F × F))) (hpts : ∀ p ∈ pts, p.2 ≠ []) (v : F) (it : Ext F × F) (its : List (Ext F × F)) (u w : F) :
    (sweep d v0 (pts ++ [(v, it :: its)])).amps u w = ideal d.short v d.cls u w := by
  have h := sweep_settled d hp hu pts hpts _ (settled_begin d hp v0)
  have hA := (at_point d hp hu v it its _ h).1.line
  have hs' := hs.ne'
  simp only [sweep, List.foldl_append, List.foldl_cons, List.foldl_nil]
  rcases hc : d.cls <;> rw [hc] at hp <;> first | exact absurd hp (by decide) | skip
  all_goals
    simp only [IsLine, hc, eff] at hA
    obtain ⟨l1, l2, l3⟩ := hA
    simp only [Elt.amps, l1, l2, l3, ideal, resValue]
    ring1

/-- An element with a plain value that is probed goes through `tr_eval` instead, and comes to the same line. -/
theorem probed_line (d : Desc F) (hp : d.cls.plain = true) (hf : d.fn = none) (hpr : d.probes = true) (hs : 0 < d.short) (a : Ext F)
    (s : Elt F) (hv : d.cls = .res → d.short ≤ |s.value|)
    (h0 : s.loss0 = if d.cls = .vcvs ∨ d.cls = .vs then 1 / d.short else 0)
    (h1 : d.cls = .vs ∨ d.cls = .cs → s.m0.c1 = 0) (u w : F) :
    (s.eval d a).amps u w = ideal d.short s.value d.cls u w := by
  have hu : d.using = true := by simp [Desc.using, hpr]
  have hs' := hs.ne'
  rcases hc : d.cls <;> rw [hc] at hp <;> first | exact absurd hp (by decide) | skip
  · have hv' := hv hc
    have hne : s.value ≠ 0 := by
      intro h; rw [h, abs_zero] at hv'; exact absurd hs (not_lt.2 hv')
    have hcl : ∀ x, clampRes d.short ⟨x, x * s.value, s.value⟩ = ⟨x, x * s.value, s.value⟩ := by
      intro x
      rcases le_abs.1 hv' with h | h
      · have h' : s.value ≥ d.short := h
        simp only [clampRes, if_pos h']
      · have h' : s.value ≤ -d.short := by linarith
        have h2 : ¬ s.value ≥ d.short := by linarith
        simp only [clampRes, if_pos h', if_neg h2]
    simp only [hc, reduceCtorEq, or_self, if_false] at h0
    simp only [Elt.eval, hc, hu, if_true, trEval, hf, hcl, Elt.amps, h0, ideal, if_neg (not_lt.2 hv')]
    field_simp
    ring
  all_goals
    simp only [hc, reduceCtorEq, or_self, or_true, true_or, if_false, if_true, forall_const] at h0 h1
    simp only [Elt.eval, hc, hu, if_true, trEval, hf, FPoly.toC, CPoly.scale, Elt.amps, h0, h1, ideal]
    ring

/-- A plain CCCS sensing anything but a coupled coil: at every evaluation of every point, the gain of that point. -/
theorem cccs_sweep (d : Desc F) (hc : d.cls = .cccs) (hu : d.using = false) (v0 : F) (pts : List (F × List (Ext F × F)))
    (v : F) (its : List (Ext F × F)) (a : Ext F) (l c0 c1 : F) (ha : a.sense = .iv l c0 c1) (u w : F) :
    ((sweep d v0 (pts ++ [(v, its)])).eval d a).amps u w = v * a.sense.current u := by
  have iter : ∀ (b : Bool) (it : Ext F × F) (e : F) (s : Elt F), s.loss0 = 0 ∧ s.y.f1 = e →
      (s.iter d b it).loss0 = 0 ∧ (s.iter d b it).y.f1 = e := by
    intro b it e s h
    simp only [Elt.iter, Elt.load, hc, Elt.eval, hu, Bool.false_eq_true, if_false]
    exact h
  have fold : ∀ (its : List (Ext F × F)) (e : F) (s : Elt F), s.loss0 = 0 ∧ s.y.f1 = e →
      (its.foldl (fun s it => s.iter d false it) s).loss0 = 0 ∧ (its.foldl (fun s it => s.iter d false it) s).y.f1 = e := by
    intro its e
    induction its with
    | nil => intro s h; exact h
    | cons it rest ih => intro s h; exact ih _ (iter false it e s h)
  have point : ∀ (e : F) (its : List (Ext F × F)) (s : Elt F), s.loss0 = 0 →
      (s.point d e its).loss0 = 0 ∧ (s.point d e its).y.f1 = e := by
    intro e its s h0
    have b : ((s.precalc e).dcAdvance d).loss0 = 0 ∧ ((s.precalc e).dcAdvance d).y.f1 = e := by
      by_cases he : s.y1.f1 = e <;> simp [Elt.dcAdvance, hu, hc, Elt.precalc, he, h0]
    cases its with
    | nil => exact b
    | cons it rest => exact fold rest e _ (iter true it e _ b)
  have all : ∀ (pts : List (F × List (Ext F × F))) (s : Elt F), s.loss0 = 0 →
      (pts.foldl (fun s p => s.point d p.1 p.2) s).loss0 = 0 := by
    intro pts
    induction pts with
    | nil => intro s h; exact h
    | cons p rest ih => intro s h; exact ih _ (point p.1 p.2 s h).1
  have hb : ((Elt.new v0).begin d).loss0 = 0 := by simp [Elt.begin, hc, Elt.beginBase, Elt.new]
  have h := point v its _ (all pts _ hb)
  simp only [sweep, List.foldl_append, List.foldl_cons, List.foldl_nil]
  generalize (pts.foldl (fun s p => s.point d p.1 p.2) ((Elt.new v0).begin d)).point d v its = q at h ⊢
  simp only [Elt.eval, hc, hu, Bool.false_eq_true, if_false, ha, addSense, Elt.amps, h.1, h.2, Sense.current]
  ring

/-- A plain CCVS sensing anything but a coupled coil, as long as nothing changes its gain: partial, because a sweep of a
parameter its gain depends on does not reach it (`ccvs_sweep_stale`), and because of `ccvs_inode_collapses`. -/
theorem ccvs_sweep_partial (d : Desc F) (hc : d.cls = .ccvs) (hu : d.using = false) (hs : 0 < d.short) (v0 : F)
    (pts : List (F × List (Ext F × F))) (a : Ext F) (l c0 c1 : F) (ha : a.sense = .iv l c0 c1) (u w : F) :
    w - v0 * a.sense.current u = d.short * ((sweep d v0 pts).eval d a).amps u w := by
  have inv : ∀ (pts : List (F × List (Ext F × F))) (s : Elt F), s.loss0 = 1 / d.short ∧ s.loss1 = 1 / d.short ∧ s.y.f1 = v0 →
      let t := pts.foldl (fun s p => s.point d p.1 p.2) s
      t.loss0 = 1 / d.short ∧ t.loss1 = 1 / d.short ∧ t.y.f1 = v0 := by
    have iter : ∀ (b : Bool) (it : Ext F × F) (s : Elt F), s.loss0 = 1 / d.short ∧ s.loss1 = 1 / d.short ∧ s.y.f1 = v0 →
        (s.iter d b it).loss0 = 1 / d.short ∧ (s.iter d b it).loss1 = 1 / d.short ∧ (s.iter d b it).y.f1 = v0 := by
      intro b it s h
      cases b <;>
        simp [Elt.iter, Elt.load, hc, Elt.eval, hu, dampTo, h.1, h.2.1, h.2.2]
    have fold : ∀ (its : List (Ext F × F)) (s : Elt F), s.loss0 = 1 / d.short ∧ s.loss1 = 1 / d.short ∧ s.y.f1 = v0 →
        (its.foldl (fun s it => s.iter d false it) s).loss0 = 1 / d.short ∧
        (its.foldl (fun s it => s.iter d false it) s).loss1 = 1 / d.short ∧
        (its.foldl (fun s it => s.iter d false it) s).y.f1 = v0 := by
      intro its
      induction its with
      | nil => intro s h; exact h
      | cons it rest ih => intro s h; exact ih _ (iter false it s h)
    have adv : ∀ (e : F) (s : Elt F), ((s.precalc e).dcAdvance d) = s.precalc e := by
      intro e s; simp only [Elt.dcAdvance, hu, hc, Bool.false_eq_true, if_false]
    intro pts
    induction pts with
    | nil => intro s h; exact h
    | cons p rest ih =>
      intro s h
      refine ih _ ?_
      obtain ⟨e, its⟩ := p
      cases its with
      | nil => simp only [Elt.point, adv]; exact h
      | cons it its => simp only [Elt.point, adv]; exact fold its _ (iter true it _ h)
  have hb : ((Elt.new v0).begin d).loss0 = 1 / d.short ∧ ((Elt.new v0).begin d).loss1 = 1 / d.short ∧
      ((Elt.new v0).begin d).y.f1 = v0 := by simp [Elt.begin, hc, Elt.beginBase, Elt.new]
  have h := inv pts _ hb
  simp only at h
  have hs' := hs.ne'
  simp only [sweep]
  generalize pts.foldl (fun s p => s.point d p.1 p.2) ((Elt.new v0).begin d) = q at h ⊢
  simp only [Elt.eval, hc, hu, Bool.false_eq_true, if_false, ha, addSense, Elt.amps, h.1, h.2.2, Sense.current, CPoly.scale]
  field_simp
  ring

/-! ## AC -/

/-- the AC current of the sensed element (`ac_amps`, d_vs.cc:62, d_cs.cc, e_elemnt.cc:441-445 with no shunt) -/
def AcSense.current : AcSense F → F → F
  | .src acg loss, u => acg + loss * u
  | .inode, u => u
  | .iv acg, u => acg * u

/-- AC: the output rows of a CCCS get the gain times the sensed current ... -/
theorem cccs_ac (n : ℕ) (mf ev : F) (o1 o2 i1 i2 : ℕ) (h3 : i1 ≤ n) (h4 : i2 ≤ n) (a : AcSense F) (r : ℕ) (x : ℕ → F) :
    residual n (cccsAcLoads mf ev o1 o2 i1 i2 a) r x =
      (inc o1 r - inc o2 r) * (mf * (ev * a.current (volt x i1 - volt x i2))) := by
  cases a <;>
    simp only [cccsAcLoads, residual_cons, residual_nil, coefM, coefI, zero_mul, Finset.sum_const_zero, sub_zero, zero_sub] <;>
    rw [sum_diff n i1 i2 h3 h4] <;> simp only [AcSense.current] <;> ring

/-- ... and those of a CCVS the current through `shortckt` that the missing voltage drives. -/
theorem ccvs_ac (n : ℕ) (mf l ev : F) (o1 o2 i1 i2 : ℕ) (h1 : o1 ≤ n) (h2 : o2 ≤ n) (h3 : i1 ≤ n) (h4 : i2 ≤ n) (a : AcSense F)
    (r : ℕ) (x : ℕ → F) :
    residual n (ccvsAcLoads mf l ev o1 o2 i1 i2 a) r x =
      (inc o1 r - inc o2 r) * (mf * (l * ((volt x o1 - volt x o2) - ev * a.current (volt x i1 - volt x i2)))) := by
  cases a <;>
    simp only [ccvsAcLoads, residual_cons, residual_nil, coefM, coefI, zero_mul, Finset.sum_const_zero, sub_zero, zero_sub] <;>
    rw [sum_diff n o1 o2 h1 h2, sum_diff n i1 i2 h3 h4] <;> simp only [AcSense.current] <;> ring

/-- The gain a CCCS uses in AC is its value, with or without an operating point. -/
theorem cccs_ac_gain (d : Desc F) (hc : d.cls = .cccs) (v : F) (hasOp : Bool) :
    acGain .cccs hasOp (if hasOp then (Elt.new v).begin d else Elt.new v) = v := by
  cases hasOp <;> simp [acGain, Elt.begin, hc, Elt.beginBase, Elt.new]

/-- A CCVS that has seen no operating point has no gain in AC at all. -/
theorem ccvs_ac_without_op (v : F) : acGain .ccvs false (Elt.new v) = 0 := rfl

end

/-! ## defects -/

/-- A plain CCVS in a sweep of its gain from 1 to 2: still 1. -/
theorem ccvs_sweep_stale :
    ∃ (d : Desc ℚ) (a : Ext ℚ), d.cls = .ccvs ∧ d.using = false ∧ 0 < d.short ∧ a.sense = .iv 0 0 1 ∧
      ∀ u w : ℚ, d.short * ((sweep d 1 [(1, [(a, 1)]), (2, [(a, 1)])]).eval d a).amps u w = w - 1 * a.sense.current u := by
  refine ⟨⟨.ccvs, 1, 0, false, none⟩, ⟨0, 0, 0, 0, .iv 0 0 1⟩, rfl, rfl, by norm_num, rfl, fun u w => ?_⟩
  exact (ccvs_sweep_partial ⟨.ccvs, 1, 0, false, none⟩ rfl rfl (by norm_num) 1 _ ⟨0, 0, 0, 0, .iv 0 0 1⟩ 0 0 1 rfl u w).symm

/-- A plain CCVS sensing a coupled coil: every iteration multiplies its gain by `-1/shortckt` once more. -/
theorem ccvs_inode_collapses {F : Type _} [Field F] [LinearOrder F] [IsStrictOrderedRing F] (d : Desc F) (hc : d.cls = .ccvs)
    (hu : d.using = false) (a : Ext F) (ha : a.sense = .inode) (v : F) (its : List Unit) :
    (its.foldl (fun s _ => s.iter d true (a, 1)) ((Elt.new v).begin d)).m0.c1 =
      (-(1 / d.short)) ^ (its.length + 1) * v := by
  have key : ∀ (its : List Unit) (s : Elt F), s.loss0 = 1 / d.short →
      (its.foldl (fun s _ => s.iter d true (a, 1)) s).m0.c1 = (-(1 / d.short)) ^ its.length * s.m0.c1 := by
    intro its
    induction its with
    | nil => intro s _; simp
    | cons i rest ih =>
      intro s h
      rw [List.foldl_cons, ih]
      · simp only [Elt.iter, Elt.load, Elt.eval, hc, hu, Bool.false_eq_true, if_false, ha, addSense, CPoly.scale, dampTo, if_true, h,
          List.length_cons, pow_succ]
        ring
      · simp only [Elt.iter, Elt.load, Elt.eval, hc, hu, Bool.false_eq_true, if_false, dampTo, if_true, h]
  rw [key]
  · simp only [Elt.begin, hc, Elt.beginBase, Elt.new, pow_succ]; ring
  · simp only [Elt.begin, hc, Elt.beginBase, Elt.new]

/-- A plain CCCS sensing a coupled coil in a sweep of its gain: the old gain, `dc_advance` having put the new one in `c0`. -/
theorem cccs_inode_sweep_stale :
    ∃ (d : Desc ℚ) (a : Ext ℚ), d.cls = .cccs ∧ d.using = false ∧ a.sense = .inode ∧
      ∀ u w : ℚ, ((sweep d 1 [(1, [(a, 1)]), (2, [(a, 1)])]).eval d a).amps u w = 1 * a.sense.current u := by
  refine ⟨⟨.cccs, 1, 0, false, none⟩, ⟨0, 0, 0, 0, .inode⟩, rfl, rfl, rfl, fun u w => ?_⟩
  simp [sweep, Elt.point, Elt.iter, Elt.eval, Elt.load, Elt.dcAdvance, Elt.precalc, Elt.begin, Elt.beginBase, Elt.new, Desc.using,
    addSense, dampTo, Elt.amps, Sense.current]

/-! ## tangent in the sense of calculus -/

section calculus
open Asymptotics Filter Topology

/-- The law of a voltage controlled element: current from (controlling voltage, output voltage). -/
noncomputable def law (short : ℝ) (g : ℝ → ℝ) : Cls → ℝ × ℝ → ℝ
  | .vcvs, p => (p.2 - g p.1) / short
  | .vcg, p => g p.1 * p.2
  | .vcr, p => p.2 / g p.1
  | _, p => g p.1

/-- C62, Newton: if the function reports its true derivative then the line that is loaded agrees with the law to first order at
the voltages it was evaluated at; the error is small against the distance. -/
theorem newton_tangent (d : Desc ℝ) (g : ℝ → ℝ) (g1 : ℝ) (a : Ext ℝ) (s : Elt ℝ) (hs : 0 < d.short)
    (hc : d.cls = .adm ∨ d.cls = .vccs ∨ d.cls = .vcvs ∨ d.cls = .vcg ∨ d.cls = .vcr)
    (fn : ℝ → FPoly ℝ) (hf : d.fn = some fn) (hfn : fn a.vin = ⟨a.vin, g a.vin, g1⟩) (hd : HasDerivAt g g1 a.vin)
    (hl : d.cls = .adm ∨ d.cls = .vccs → s.loss0 = 0) (hl' : d.cls = .vcvs → s.loss0 = 1 / d.short)
    (hz : d.cls = .vcr → g a.vin ≠ 0) :
    (fun p : ℝ × ℝ => law d.short g d.cls p - (s.eval d a).amps p.1 p.2) =o[𝓝 (a.vin, a.vout)] fun p => p - (a.vin, a.vout) := by
  have hg : HasFDerivAt (fun p : ℝ × ℝ => g p.1) (g1 • ContinuousLinearMap.fst ℝ ℝ ℝ) (a.vin, a.vout) := by
    have := hd.comp_hasFDerivAt (a.vin, a.vout) (hasFDerivAt_fst (𝕜 := ℝ) (p := (a.vin, a.vout)))
    exact this
  have h2 : HasFDerivAt (fun p : ℝ × ℝ => p.2) (ContinuousLinearMap.snd ℝ ℝ ℝ) (a.vin, a.vout) := hasFDerivAt_snd
  have fin : ∀ (f : ℝ × ℝ → ℝ) (L : ℝ × ℝ →L[ℝ] ℝ), HasFDerivAt f L (a.vin, a.vout) →
      (∀ p : ℝ × ℝ, (s.eval d a).amps p.1 p.2 = f (a.vin, a.vout) + L (p - (a.vin, a.vout))) →
      (fun p : ℝ × ℝ => f p - (s.eval d a).amps p.1 p.2) =o[𝓝 (a.vin, a.vout)] fun p => p - (a.vin, a.vout) := by
    intro f L h hp
    refine h.isLittleO.congr_left fun p => ?_
    rw [hp]; ring
  have hu := hs.ne'
  rcases hc with hc | hc | hc | hc | hc
  · rw [hc] at hl
    have e : law d.short g d.cls = fun p : ℝ × ℝ => g p.1 := by rw [hc]; rfl
    rw [e]
    refine fin _ _ hg fun p => ?_
    rw [adm_line d (Or.inl hc) fn hf a s (hl (Or.inl rfl)), hfn]
    simp
  · rw [hc] at hl
    have e : law d.short g d.cls = fun p : ℝ × ℝ => g p.1 := by rw [hc]; rfl
    rw [e]
    refine fin _ _ hg fun p => ?_
    rw [adm_line d (Or.inr hc) fn hf a s (hl (Or.inr rfl)), hfn]
    simp
  · refine fin (law d.short g d.cls) ((1 / d.short) • (ContinuousLinearMap.snd ℝ ℝ ℝ - g1 • ContinuousLinearMap.fst ℝ ℝ ℝ)) ?_ fun p => ?_
    · have := (h2.sub hg).const_mul (1 / d.short)
      refine this.congr_of_eventuallyEq (Eventually.of_forall fun p => ?_)
      simp only [law, hc, Pi.sub_apply]; ring
    · have := vcvs_line d hc fn hf hs a s (hl' hc) p.1 p.2
      rw [hfn] at this
      simp only [law, hc, smul_apply, sub_apply, ContinuousLinearMap.coe_snd',
        ContinuousLinearMap.coe_fst', Prod.fst_sub, Prod.snd_sub, smul_eq_mul]
      field_simp
      linarith
  · refine fin (law d.short g d.cls) (g a.vin • ContinuousLinearMap.snd ℝ ℝ ℝ + a.vout • (g1 • ContinuousLinearMap.fst ℝ ℝ ℝ)) ?_ fun p => ?_
    · have e : law d.short g d.cls = fun p : ℝ × ℝ => g p.1 * p.2 := by rw [hc]; rfl
      rw [e]
      exact hg.mul h2
    · rw [vcg_line d hc fn hf, hfn]
      simp only [law, hc, smul_apply, _root_.add_apply, ContinuousLinearMap.coe_snd',
        ContinuousLinearMap.coe_fst', Prod.fst_sub, Prod.snd_sub, smul_eq_mul]
      ring
  · have hz' := hz hc
    have hinv : HasDerivAt (fun t => (g t)⁻¹) (-g1 / g a.vin ^ 2) a.vin := hd.inv hz'
    have hgi : HasFDerivAt (fun p : ℝ × ℝ => (g p.1)⁻¹) ((-g1 / g a.vin ^ 2) • ContinuousLinearMap.fst ℝ ℝ ℝ) (a.vin, a.vout) := by
      have := hinv.comp_hasFDerivAt (f := Prod.fst) (a.vin, a.vout) (hasFDerivAt_fst (𝕜 := ℝ) (p := (a.vin, a.vout)))
      exact this
    refine fin (law d.short g d.cls)
      (a.vout • ((-g1 / g a.vin ^ 2) • ContinuousLinearMap.fst ℝ ℝ ℝ) + (g a.vin)⁻¹ • ContinuousLinearMap.snd ℝ ℝ ℝ) ?_ fun p => ?_
    · have := h2.mul hgi
      have e : law d.short g d.cls = fun p : ℝ × ℝ => p.2 * (g p.1)⁻¹ := by
        funext p; simp only [law, hc, div_eq_mul_inv]
      rw [e]
      exact this
    · rw [vcr_line d hc fn hf a s (by rw [hfn]; exact hz'), hfn]
      simp only [law, hc, smul_apply, _root_.add_apply, ContinuousLinearMap.coe_snd',
        ContinuousLinearMap.coe_fst', Prod.fst_sub, Prod.snd_sub, smul_eq_mul]
      field_simp
      ring

/-! ## examples -/

/-- `v = i^2` at 2 A, found from a line of slope 1 -/
example :
    let d : Desc ℚ := ⟨.res, 1/1000, 0, false, some fun i => ⟨i, i ^ 2, 2 * i⟩⟩
    let s : Elt ℚ := ⟨0, ⟨0, 0, 0⟩, ⟨0, 0, 0⟩, ⟨0, 0, 1⟩, ⟨0, 0, 1⟩, 0, 0⟩
    ∀ u i : ℚ, i = (s.eval d ⟨2, 2, 0, 0, .inode⟩).amps u u ↔ u = 2 ^ 2 + 2 * 2 * (i - 2) := by
  intro d s u i
  have h := res_line d rfl _ rfl (by norm_num [d]) ⟨2, 2, 0, 0, .inode⟩ s rfl (by norm_num [d, s, Elt.amps]) u i
  norm_num [Elt.amps, s] at h ⊢
  exact h

/-- a resistor swept from 1 to 5 Ω through a short circuit: the last point conducts 1/5 -/
example :
    let d : Desc ℚ := ⟨.res, 1/1000, 0, false, none⟩
    let a : Ext ℚ := ⟨3, 3, 0, 0, .inode⟩
    ∀ u w : ℚ, (sweep d 1 ([(1, [(a, 1)]), (0, [(a, 1), (a, 1/2)])] ++ [(5, [(a, 1), (a, 1/3)])])).amps u w = u / 5 := by
  intro d a u w
  rw [plain_sweep d rfl rfl (by norm_num [d]) 1 _ (by simp) 5 _ _ u w]
  norm_num [ideal, d]

/-- a conductance controlled by a voltage, `v^2` mhos, at 3 V with 5 V on it -/
example :
    let d : Desc ℝ := ⟨.vcg, 1, 0, false, some fun t => ⟨t, t * t, 2 * t⟩⟩
    let a : Ext ℝ := ⟨3, 5, 0, 0, .inode⟩
    (fun p : ℝ × ℝ => law 1 (fun t => t * t) .vcg p - ((Elt.new 0).eval d a).amps p.1 p.2) =o[𝓝 ((3 : ℝ), (5 : ℝ))]
      fun p => p - ((3 : ℝ), (5 : ℝ)) := by
  intro d a
  refine newton_tangent d (fun t => t * t) (2 * 3) a _ (by norm_num [d]) (by simp [d]) _ rfl rfl ?_ (by simp [d]) (by simp [d])
    (by simp [d])
  have := (hasDerivAt_id (3 : ℝ)).mul (hasDerivAt_id (3 : ℝ))
  convert this using 1 <;> first | rfl | (simp; norm_num)

end calculus
end Gnucap.Tangent
