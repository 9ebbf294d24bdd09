import Mathlib.Analysis.SpecialFunctions.Pow.Deriv
import Mathlib.Analysis.SpecialFunctions.Trigonometric.DerivHyp
import Mathlib.Analysis.Calculus.Deriv.Pow
import Verif.BehavModel
import Verif.TangentProps

/-!
# C63: a behavioural function reports its value and its slope

Specification: the function itself, as a function on the reals, its derivative in the sense of calculus, and the modifiers
as the manual has them, `y = scale * (1 + tc1 dT + tc2 dT^2) * f(x + ioffset) + ooffset`.
-/
set_option linter.unusedSectionVars false
set_option linter.unusedSimpArgs false
namespace Gnucap.Behav
open Gnucap.Integ Gnucap.Tangent
open Filter Topology

/-! ## POLY -/

section
variable {F : Type _} [Field F]

/-- the polynomial with the given coefficients -/
def polyLaw (c : List F) (x : F) : F := ∑ i ∈ Finset.range c.length, c.getD i 0 * x ^ i

/-- its derivative -/
def polySlope (c : List F) (x : F) : F := ∑ i ∈ Finset.range c.length, c.getD i 0 * ((i : ℕ) : F) * x ^ (i - 1)

theorem polyLoop_eq (c : List F) (x : F) (i : ℕ) (s : F × F) :
    polyLoop c x i s =
      (s.1 * x ^ i + ∑ j ∈ Finset.range i, c.getD (j + 1) 0 * x ^ (j + 1),
       s.2 * x ^ i + ∑ j ∈ Finset.range i, c.getD (j + 1) 0 * ((j + 1 : ℕ) : F) * x ^ j) := by
  induction i generalizing s with
  | zero => simp [polyLoop]
  | succ i ih =>
    rw [polyLoop, ih, Finset.sum_range_succ, Finset.sum_range_succ]
    ext
    · simp only; ring
    · simp only; ring

/-- C63, POLY: Horner's loop computes the polynomial and its derivative, for every degree. -/
theorem poly_sum (c : List F) (hc : c ≠ []) (x : F) : polySum c x = some (polyLaw c x, polySlope c x) := by
  obtain ⟨c0, r, rfl⟩ := List.exists_cons_of_ne_nil hc
  simp only [polySum, polyLoop_eq, polyLaw, polySlope, List.length_cons, Nat.add_sub_cancel]
  rw [Finset.sum_range_succ' (fun i => (c0 :: r).getD i 0 * x ^ i),
    Finset.sum_range_succ' (fun i => (c0 :: r).getD i 0 * ((i : ℕ) : F) * x ^ (i - 1))]
  simp

/-- Without coefficients the loop starts beyond the end of the array. -/
theorem poly_without_coefficients (x : F) : polySum ([] : List F) x = none := rfl

end

theorem polyLaw_deriv (c : List ℝ) (x : ℝ) : HasDerivAt (polyLaw c) (polySlope c x) x := by
  have : HasDerivAt (fun t : ℝ => ∑ i ∈ Finset.range c.length, c.getD i 0 * t ^ i)
      (∑ i ∈ Finset.range c.length, c.getD i 0 * (((i : ℕ) : ℝ) * x ^ (i - 1))) x :=
    HasDerivAt.fun_sum fun i _ => (hasDerivAt_pow i x).const_mul _
  have e : polySlope c x = ∑ i ∈ Finset.range c.length, c.getD i 0 * (((i : ℕ) : ℝ) * x ^ (i - 1)) := by
    simp only [polySlope, mul_assoc]
  rw [e]
  exact this

/-! ## `abs`, `min`, `max` -/

/-- the absolute value, if asked for -/
def Lim.before (l : Lim ℝ) (v : ℝ) : ℝ := if l.abs then |v| else v

/-- ... kept between `min` and `max` -/
noncomputable def limLaw (l : Lim ℝ) (v : ℝ) : ℝ := max l.min (min l.max (l.before v))

theorem lim_value (l : Lim ℝ) (hm : l.min ≤ l.max) (v s : ℝ) : (l.apply (v, s)).1 = limLaw l v := by
  obtain ⟨a, mn, mx⟩ := l
  simp only [Lim.apply, limLaw, Lim.before] at *
  have e : (if a = true ∧ v < 0 then (-v, -s) else (v, s)).1 = if a then |v| else v := by
    cases a
    · simp
    · by_cases h : v < 0
      · simp [h, abs_of_neg h]
      · simp [h, abs_of_nonneg (not_lt.1 h)]
  generalize (if a = true ∧ v < 0 then (-v, -s) else (v, s)) = q at e
  rw [← e]
  by_cases h1 : q.1 > mx
  · simp only [if_pos h1]
    rw [min_eq_left h1.le, max_eq_right hm]
  · by_cases h2 : q.1 < mn
    · simp only [if_neg h1, if_pos h2]
      rw [min_eq_right (not_lt.1 h1), max_eq_left h2.le]
    · simp only [if_neg h1, if_neg h2]
      rw [min_eq_right (not_lt.1 h1), max_eq_right (not_lt.1 h2)]

theorem before_deriv (l : Lim ℝ) (f : ℝ → ℝ) (f' x : ℝ) (hd : HasDerivAt f f' x) (ha : l.abs = true → f x ≠ 0) :
    HasDerivAt (fun t => l.before (f t)) (if l.abs = true ∧ f x < 0 then -f' else f') x := by
  unfold Lim.before
  cases hb : l.abs
  · simpa using hd
  · simp only [if_true, true_and]
    rcases lt_or_gt_of_ne (ha hb) with h | h
    · rw [if_pos h]
      refine hd.neg.congr_of_eventuallyEq ?_
      filter_upwards [hd.continuousAt.eventually_lt continuousAt_const h] with t ht
      simpa using abs_of_neg ht
    · rw [if_neg (not_lt.2 h.le)]
      refine hd.congr_of_eventuallyEq ?_
      filter_upwards [continuousAt_const.eventually_lt hd.continuousAt h] with t ht
      exact abs_of_pos ht

/-- C63: what `abs`, `min`, `max` make of a value and its slope is again a value and its slope, away from their corners. -/
theorem lim_report (l : Lim ℝ) (hm : l.min ≤ l.max) (f : ℝ → ℝ) (f' x : ℝ) (hd : HasDerivAt f f' x)
    (ha : l.abs = true → f x ≠ 0) (h1 : l.before (f x) ≠ l.min) (h2 : l.before (f x) ≠ l.max) :
    (l.apply (f x, f')).1 = limLaw l (f x) ∧ HasDerivAt (fun t => limLaw l (f t)) (l.apply (f x, f')).2 x := by
  refine ⟨lim_value l hm _ _, ?_⟩
  have hb := before_deriv l f f' x hd ha
  have e : (if l.abs = true ∧ f x < 0 then (-f x, -f') else (f x, f')) =
      (l.before (f x), if l.abs = true ∧ f x < 0 then -f' else f') := by
    unfold Lim.before
    cases l.abs
    · simp
    · by_cases h : f x < 0
      · simp [h, abs_of_neg h]
      · simp [h, abs_of_nonneg (not_lt.1 h)]
  simp only [Lim.apply]
  rw [e]
  dsimp only
  by_cases g1 : l.before (f x) > l.max
  · rw [if_pos g1]
    refine (hasDerivAt_const x l.max).congr_of_eventuallyEq ?_
    filter_upwards [continuousAt_const.eventually_lt hb.continuousAt g1] with t ht
    show max l.min (min l.max (l.before (f t))) = l.max
    rw [min_eq_left ht.le, max_eq_right hm]
  · by_cases g2 : l.before (f x) < l.min
    · rw [if_neg g1, if_pos g2]
      refine (hasDerivAt_const x l.min).congr_of_eventuallyEq ?_
      filter_upwards [hb.continuousAt.eventually_lt continuousAt_const g2] with t ht
      show max l.min (min l.max (l.before (f t))) = l.min
      rw [max_eq_left (le_trans (min_le_right _ _) ht.le)]
    · rw [if_neg g1, if_neg g2]
      have g1' := lt_of_le_of_ne (not_lt.1 g1) h2
      have g2' := lt_of_le_of_ne (not_lt.1 g2) h1.symm
      refine hb.congr_of_eventuallyEq ?_
      filter_upwards [hb.continuousAt.eventually_lt continuousAt_const g1',
        continuousAt_const.eventually_lt hb.continuousAt g2'] with t ht ht2
      show max l.min (min l.max (l.before (f t))) = l.before (f t)
      rw [min_eq_right ht.le, max_eq_right ht2.le]

/-! ## POSY -/

/-- the posynomial, on the positive axis -/
noncomputable def posyBase (t : List (ℝ × ℝ)) (x : ℝ) : ℝ := (t.map fun p => p.2 * x ^ p.1).sum

/-- continued to the negative axis as an odd or an even function -/
noncomputable def posyLaw (odd : Bool) (t : List (ℝ × ℝ)) (x : ℝ) : ℝ :=
  if x < 0 then (if odd then -posyBase t (-x) else posyBase t (-x)) else posyBase t x

theorem posySum_pos (t : List (ℝ × ℝ)) (x : ℝ) (hx : 0 < x) :
    posySum t x = (posyBase t x, (t.map fun p => p.2 * (p.1 * x ^ (p.1 - 1))).sum) := by
  have gen : ∀ (t : List (ℝ × ℝ)) (s : ℝ × ℝ),
      t.foldl (fun f p => let coeff := p.2 * x ^ (p.1 - 1); (f.1 + coeff * x, f.2 + coeff * p.1)) s =
        (s.1 + posyBase t x, s.2 + (t.map fun p => p.2 * (p.1 * x ^ (p.1 - 1))).sum) := by
    intro t
    induction t with
    | nil => intro s; simp [posyBase]
    | cons p r ih =>
      intro s
      rw [List.foldl_cons, ih]
      have : x ^ (p.1 - 1) * x = x ^ p.1 := by
        rw [Real.rpow_sub_one hx.ne']; field_simp
      ext
      · simp only [posyBase, List.map_cons, List.sum_cons]
        rw [mul_assoc, this]; ring
      · simp only [List.map_cons, List.sum_cons]; ring
  simp only [posySum, gt_iff_lt, if_pos hx]
  rw [gen]; simp

theorem posyBase_deriv (t : List (ℝ × ℝ)) (x : ℝ) (hx : 0 < x) :
    HasDerivAt (posyBase t) (t.map fun p => p.2 * (p.1 * x ^ (p.1 - 1))).sum x := by
  induction t with
  | nil => exact hasDerivAt_const x 0
  | cons p r ih =>
    have h := ((Real.hasDerivAt_rpow_const (p := p.1) (Or.inl hx.ne')).const_mul p.2).add ih
    exact h

/-- C63, POSY: value and slope of the posynomial, away from 0, where it has been continued. -/
theorem posy_report (odd even : Bool) (hoe : odd = true ∧ even = false ∨ odd = false ∧ even = true) (t : List (ℝ × ℝ)) (x : ℝ)
    (hx : x ≠ 0) :
    (posyCore odd even t x).1 = posyLaw odd t x ∧ HasDerivAt (posyLaw odd t) (posyCore odd even t x).2 x := by
  rcases lt_or_gt_of_ne hx with h | h
  · have hneg : 0 < -x := by linarith
    have hb := (posyBase_deriv t (-x) hneg).comp x (hasDerivAt_neg x)
    have ev : ∀ᶠ s in 𝓝 x, s < 0 := eventually_lt_nhds h
    rcases hoe with ⟨rfl, rfl⟩ | ⟨rfl, rfl⟩
    · simp only [posyCore, h, if_true, Bool.true_or, posySum_pos t _ hneg, and_self, Bool.false_eq_true, false_and, if_false]
      refine ⟨by simp [posyLaw, h], hb.neg.congr_of_eventuallyEq ?_ |>.congr_deriv ?_⟩
      · filter_upwards [ev] with s hs
        simp [posyLaw, hs]
      · ring
    · simp only [posyCore, h, if_true, Bool.or_true, posySum_pos t _ hneg, and_self, Bool.false_eq_true, false_and, if_false]
      refine ⟨by simp [posyLaw, h], hb.congr_of_eventuallyEq ?_ |>.congr_deriv ?_⟩
      · filter_upwards [ev] with s hs
        simp [posyLaw, hs]
      · ring
  · have hn : ¬ x < 0 := not_lt.2 h.le
    simp only [posyCore, hn, if_false, and_false, posySum_pos t x h]
    refine ⟨by simp [posyLaw, hn], (posyBase_deriv t x h).congr_of_eventuallyEq ?_⟩
    filter_upwards [eventually_gt_nhds h] with s hs
    simp [posyLaw, not_lt.2 hs.le]

/-- A constant term counts as 1 at zero (and at all negative inputs of a function that is not continued). -/
theorem posy_constant_at_zero : posyCore false false [(0, 5)] (-1) = (1, 0) ∧ posyCore true false [(0, 5)] 0 = (1, 0) := by
  constructor <;> norm_num [posyCore, posySum]

/-- A linear function has no slope at zero. -/
theorem posy_slope_at_zero :
    (posyCore true false [(1, 5)] 0).2 = 0 ∧ HasDerivAt (posyLaw true [(1, 5)]) 5 0 := by
  refine ⟨by norm_num [posyCore, posySum], ?_⟩
  have e : posyLaw true [(1, 5)] = fun x : ℝ => 5 * x := by
    funext x
    simp only [posyLaw, posyBase, List.map_cons, List.map_nil, List.sum_cons, List.sum_nil, Real.rpow_one, if_true]
    split <;> ring
  rw [e]
  simpa using (hasDerivAt_id (0 : ℝ)).const_mul (5 : ℝ)

/-! ## TANH -/

theorem hasDerivAt_tanh (x : ℝ) : HasDerivAt Real.tanh (1 / (Real.cosh x * Real.cosh x)) x := by
  have h := (Real.hasDerivAt_sinh x).div (Real.hasDerivAt_cosh x) (Real.cosh_pos x).ne'
  have e : Real.tanh = fun t => Real.sinh t / Real.cosh t := by funext t; exact Real.tanh_eq_sinh_div_cosh t
  rw [e]
  refine h.congr_deriv ?_
  have h2 := Real.cosh_sq x
  have hc := (Real.cosh_pos x).ne'
  field_simp
  nlinarith [h2]

/-- C63, TANH: value and slope, for all inputs at which it is computed at all. -/
theorem tanh_report (big gain limit x : ℝ) (hl : limit ≠ 0) (h1 : x * gain / limit ≤ big) (h2 : -big ≤ x * gain / limit) :
    (tanhCore big gain limit x).1 = limit * Real.tanh (gain * x / limit) ∧
      HasDerivAt (fun t => limit * Real.tanh (gain * t / limit)) (tanhCore big gain limit x).2 x := by
  have e : gain * x / limit = x * gain / limit := by ring
  simp only [tanhCore, gt_iff_lt, if_neg (not_lt.2 h1), if_neg (not_lt.2 h2)]
  refine ⟨by rw [e], ?_⟩
  have h := ((hasDerivAt_tanh (gain * x / limit)).comp x
    (((hasDerivAt_id x).const_mul gain).div_const limit)).const_mul limit
  refine h.congr_deriv ?_
  rw [e]
  have hc := (Real.cosh_pos (x * gain / limit)).ne'
  simp only [mul_one]
  field_simp

/-- Further out it is cut off, which it misses by at most `2 |limit| exp(-2 big)`. -/
theorem tanh_cut (big gain limit x : ℝ) (hb : 0 ≤ big) (h : big < x * gain / limit ∨ x * gain / limit < -big) :
    |(tanhCore big gain limit x).1 - limit * Real.tanh (gain * x / limit)| ≤ 2 * |limit| * Real.exp (-2 * big) ∧
      (tanhCore big gain limit x).2 = 0 := by
  have e : gain * x / limit = x * gain / limit := by ring
  rw [e]
  have key : ∀ a : ℝ, big < a → |1 - Real.tanh a| ≤ 2 * Real.exp (-2 * big) := by
    intro a ha
    have hp := Real.exp_pos a
    have hn := Real.exp_pos (-a)
    have e1 : 1 - Real.tanh a = 2 * Real.exp (-a) / (Real.exp a + Real.exp (-a)) := by
      rw [Real.tanh_eq_sinh_div_cosh, Real.sinh_eq, Real.cosh_eq]
      field_simp
      ring
    rw [e1, abs_of_pos (by positivity)]
    have e2 : Real.exp (-a) ≤ Real.exp (-2 * big) * Real.exp a := by
      rw [← Real.exp_add]; exact Real.exp_le_exp.2 (by linarith)
    rw [div_le_iff₀ (by positivity)]
    have := Real.exp_pos (-2 * big)
    nlinarith [mul_pos this hn]
  rcases h with h | h
  · simp only [tanhCore, gt_iff_lt, if_pos h]
    refine ⟨?_, trivial⟩
    have := key _ h
    calc |limit - limit * Real.tanh (x * gain / limit)| = |limit| * |1 - Real.tanh (x * gain / limit)| := by
          rw [← abs_mul]; ring_nf
      _ ≤ |limit| * (2 * Real.exp (-2 * big)) := mul_le_mul_of_nonneg_left this (abs_nonneg _)
      _ = _ := by ring
  · have hn : ¬ big < x * gain / limit := by linarith
    simp only [tanhCore, gt_iff_lt, if_neg hn, if_pos h]
    refine ⟨?_, trivial⟩
    have := key (-(x * gain / limit)) (by linarith)
    rw [Real.tanh_neg] at this
    calc |-limit - limit * Real.tanh (x * gain / limit)| = |limit| * |1 - -Real.tanh (x * gain / limit)| := by
          rw [← abs_mul, ← abs_neg]; ring_nf
      _ ≤ |limit| * (2 * Real.exp (-2 * big)) := mul_le_mul_of_nonneg_left this (abs_nonneg _)
      _ = _ := by ring

/-! ## the modifiers -/

/-- what the modifiers are to make of a function -/
def modified {F : Type _} [Field F] (m : Mods F) (f : F → F) (x : F) : F :=
  m.scale * (1 + m.tc1 * m.dT + m.tc2 * m.dT ^ 2) * f (x + m.ioff) + m.ooff

theorem temp_eq {F : Type _} [Field F] (m : Mods F) : m.temp = m.scale * (1 + m.tc1 * m.dT + m.tc2 * m.dT ^ 2) := by
  simp only [Mods.temp]; ring

/-- C63: value and slope after the modifiers, at the shifted input, for elements that use value and slope. -/
theorem modified_report (m : Mods ℝ) (hic : m.icNow = none) (core : ℝ → ℝ × ℝ) (f : ℝ → ℝ) (x : ℝ)
    (h : (core (x + m.ioff)).1 = f (x + m.ioff) ∧ HasDerivAt f (core (x + m.ioff)).2 (x + m.ioff)) :
    (m.eval false core x).f0 = modified m f x ∧ HasDerivAt (modified m f) (m.eval false core x).f1 x ∧
      (m.eval false core x).x = x + m.ioff := by
  simp only [Mods.eval, Mods.shift, hic, Option.getD_none, Mods.final, Bool.false_eq_true, if_false, FPoly.scale, FPoly.addC]
  refine ⟨?_, ?_, trivial⟩
  · rw [h.1, modified, temp_eq]; ring
  · have hs : HasDerivAt (fun t => f (t + m.ioff)) (core (x + m.ioff)).2 x := by
      have := h.2.comp x ((hasDerivAt_id x).add_const m.ioff)
      rw [mul_one] at this
      exact this
    have := (hs.const_mul m.temp).add_const m.ooff
    refine (this.congr_deriv (by ring)).congr_of_eventuallyEq (Eventually.of_forall fun t => ?_)
    simp only [modified, temp_eq]

/-- C63, POLY with its limits and modifiers. -/
theorem poly_report (m : Mods ℝ) (hic : m.icNow = none) (l : Lim ℝ) (hm : l.min ≤ l.max) (c : List ℝ) (hc : c ≠ []) (x : ℝ)
    (ha : l.abs = true → polyLaw c (x + m.ioff) ≠ 0) (h1 : l.before (polyLaw c (x + m.ioff)) ≠ l.min)
    (h2 : l.before (polyLaw c (x + m.ioff)) ≠ l.max) :
    ∃ y, polyEval m l c false x = some y ∧ y.f0 = modified m (fun t => limLaw l (polyLaw c t)) x ∧
      HasDerivAt (modified m fun t => limLaw l (polyLaw c t)) y.f1 x ∧ y.x = x + m.ioff := by
  refine ⟨m.eval false (fun t => l.apply (polyLaw c t, polySlope c t)) x, ?_, ?_⟩
  · simp only [polyEval, poly_sum c hc, Mods.eval]
  · exact modified_report m hic _ _ x (lim_report l hm _ _ _ (polyLaw_deriv c _) ha h1 h2)

/-- C63, POSY with its limits and modifiers, away from 0. -/
theorem posy_eval_report (m : Mods ℝ) (hic : m.icNow = none) (l : Lim ℝ) (hm : l.min ≤ l.max) (odd even : Bool)
    (hoe : odd = true ∧ even = false ∨ odd = false ∧ even = true) (t : List (ℝ × ℝ)) (x : ℝ) (hx : x + m.ioff ≠ 0)
    (ha : l.abs = true → posyLaw odd t (x + m.ioff) ≠ 0) (h1 : l.before (posyLaw odd t (x + m.ioff)) ≠ l.min)
    (h2 : l.before (posyLaw odd t (x + m.ioff)) ≠ l.max) :
    (posyEval m l odd even t false x).f0 = modified m (fun t' => limLaw l (posyLaw odd t t')) x ∧
      HasDerivAt (modified m fun t' => limLaw l (posyLaw odd t t')) (posyEval m l odd even t false x).f1 x ∧
      (posyEval m l odd even t false x).x = x + m.ioff := by
  have hp := posy_report odd even hoe t (x + m.ioff) hx
  have := lim_report l hm _ _ _ hp.2 ha h1 h2
  rw [← hp.1] at this
  refine modified_report m hic (fun x => l.apply (posyCore odd even t x)) _ x ⟨?_, this.2⟩
  rw [← hp.1]
  exact this.1

/-- C63, in the circuit: without `ioffset` an admittance, VCCS, VCVS, VCG or VCR loads the tangent of the modified function. -/
theorem modified_tangent (d : Desc ℝ) (m : Mods ℝ) (hic : m.icNow = none) (hio : m.ioff = 0) (core : ℝ → ℝ × ℝ) (f : ℝ → ℝ)
    (a : Ext ℝ) (s : Elt ℝ) (hs : 0 < d.short)
    (hc : d.cls = .adm ∨ d.cls = .vccs ∨ d.cls = .vcvs ∨ d.cls = .vcg ∨ d.cls = .vcr)
    (hf : d.fn = some (m.eval false core))
    (h : (core a.vin).1 = f a.vin ∧ HasDerivAt f (core a.vin).2 a.vin)
    (hl : d.cls = .adm ∨ d.cls = .vccs → s.loss0 = 0) (hl' : d.cls = .vcvs → s.loss0 = 1 / d.short)
    (hz : d.cls = .vcr → modified m f a.vin ≠ 0) :
    (fun p : ℝ × ℝ => law d.short (modified m f) d.cls p - (s.eval d a).amps p.1 p.2) =o[𝓝 (a.vin, a.vout)]
      fun p => p - (a.vin, a.vout) := by
  have e : a.vin + m.ioff = a.vin := by rw [hio, add_zero]
  obtain ⟨h0, h1, hx⟩ := modified_report m hic core f a.vin (by rw [e]; exact h)
  refine newton_tangent d (modified m f) _ a s hs hc _ hf ?_ h1 hl hl' hz
  ext
  · rw [hx, e]
  · exact h0
  · rfl

section
variable {F : Type _} [Field F] [LinearOrder F] [IsStrictOrderedRing F]

/-- With `ioffset` the line is displaced: at the present voltage it misses the function by the slope times `ioffset`. -/
theorem ioffset_line (d : Desc F) (hc : d.cls = .adm ∨ d.cls = .vccs) (m : Mods F) (hic : m.icNow = none) (core : F → F × F)
    (hf : d.fn = some (m.eval false core)) (a : Ext F) (s : Elt F) (h0 : s.loss0 = 0) (w : F) :
    (s.eval d a).amps a.vin w =
      modified m (fun x => (core x).1) a.vin - m.temp * (core (a.vin + m.ioff)).2 * m.ioff := by
  rw [adm_line d hc _ hf a s h0]
  simp only [Mods.eval, Mods.shift, hic, Option.getD_none, Mods.final, Bool.false_eq_true, if_false, FPoly.scale, FPoly.addC, modified]
  rw [temp_eq]; ring

/-- So it has no effect at all on a linear function. -/
theorem ioffset_lost (d : Desc F) (hc : d.cls = .adm ∨ d.cls = .vccs) (m : Mods F) (hic : m.icNow = none) (c b : F)
    (hf : d.fn = some (m.eval false fun x => (c + b * x, b))) (a : Ext F) (s : Elt F) (h0 : s.loss0 = 0) (u w : F) :
    (s.eval d a).amps u w = modified { m with ioff := 0 } (fun x => c + b * x) u := by
  rw [adm_line d hc _ hf a s h0]
  simp only [Mods.eval, Mods.shift, hic, Option.getD_none, Mods.final, Bool.false_eq_true, if_false, FPoly.scale, FPoly.addC, modified]
  rw [temp_eq]; ring

/-- FIT and TABLE do not look at `ioffset`. -/
theorem fit_ignores_ioffset (m : Mods F) (b : Bool) (core : F → F × F) (o : F) :
    ({ m with ioff := o } : Mods F).evalFit b core = m.evalFit b core := rfl

/-- A voltage source driven by a function: the scaled value, without `ooffset`. -/
theorem source_value (d : Desc F) (hc : d.cls = .vs) (m : Mods F) (hic : m.icNow = none) (core : F → F × F)
    (hf : d.fn = some (m.eval true core)) (hs : 0 < d.short) (a : Ext F) (s : Elt F) (h0 : s.loss0 = 1 / d.short)
    (h1 : s.m0.c1 = 0) (u w : F) :
    w - (modified m (fun x => (core x).1) a.time - m.ooff) = d.short * (s.eval d a).amps u w := by
  rw [← vs_line d hc _ hf hs a s h0 h1 u w]
  simp only [Mods.eval, Mods.shift, hic, Option.getD_none, Mods.final, if_true, FPoly.scale, FPoly.addC, modified]
  rw [temp_eq]; ring

/-- ... and so is a voltage source with a function of time ... -/
theorem source_tdv (d : Desc F) (hc : d.cls = .vs) (m : Mods F) (val : F) (hf : d.fn = some (m.tdv val)) (hs : 0 < d.short)
    (a : Ext F) (s : Elt F) (h0 : s.loss0 = 1 / d.short) (h1 : s.m0.c1 = 0) (u w : F) :
    w - m.scale * (1 + m.tc1 * m.dT + m.tc2 * m.dT ^ 2) * val = d.short * (s.eval d a).amps u w := by
  rw [← vs_line d hc _ hf hs a s h0 h1 u w]
  simp only [Mods.tdv, Mods.final, Bool.false_eq_true, if_false, FPoly.scale, FPoly.addC, CPoly.toF]
  rw [temp_eq]; ring

/-- ... or a current source. -/
theorem current_source_tdv (d : Desc F) (hc : d.cls = .cs) (m : Mods F) (val : F) (hf : d.fn = some (m.tdv val))
    (a : Ext F) (s : Elt F) (h0 : s.loss0 = 0) (h1 : s.m0.c1 = 0) (u w : F) :
    (s.eval d a).amps u w = m.scale * (1 + m.tc1 * m.dT + m.tc2 * m.dT ^ 2) * val := by
  rw [cs_line d hc _ hf a s h0 h1 u w]
  simp only [Mods.tdv, Mods.final, Bool.false_eq_true, if_false, FPoly.scale, FPoly.addC, CPoly.toF]
  rw [temp_eq]; ring

/-- On an admittance or VCCS a function of time is the conductance, and `ooffset` a current beside it; `ioffset` and `ic` do
not matter. -/
theorem admittance_tdv (d : Desc F) (hc : d.cls = .adm ∨ d.cls = .vccs) (m : Mods F) (val : F) (hf : d.fn = some (m.tdv val))
    (a : Ext F) (s : Elt F) (h0 : s.loss0 = 0) (u w : F) :
    (s.eval d a).amps u w = m.scale * (1 + m.tc1 * m.dT + m.tc2 * m.dT ^ 2) * val * u + m.ooff := by
  rw [adm_line d hc _ hf a s h0]
  simp only [Mods.tdv, Mods.final, Bool.false_eq_true, if_false, FPoly.scale, FPoly.addC, CPoly.toF]
  rw [temp_eq]; ring

/-- AC: every frequency evaluates the slope another `ioffset` further off. -/
theorem ac_drift (m : Mods F) (hic : m.icNow = none) (core : F → F × F) (n : ℕ) (x : F) :
    (acEvals (m.eval false core) n x).x = x + ((n : F) + 1) * m.ioff ∧
      (acEvals (m.eval false core) n x).f1 = m.temp * (core (x + ((n : F) + 1) * m.ioff)).2 := by
  induction n with
  | zero =>
    simp [acEvals, Mods.eval, Mods.shift, hic, Mods.final, FPoly.scale, FPoly.addC, mul_comm]
  | succ n ih =>
    have e : x + ((n : F) + 1) * m.ioff + m.ioff = x + (((n + 1 : ℕ) : F) + 1) * m.ioff := by push_cast; ring
    simp only [acEvals, ih.1]
    simp only [Mods.eval, Mods.shift, hic, Option.getD_none, Mods.final, Bool.false_eq_true, if_false, FPoly.scale, FPoly.addC, e,
      true_and]
    ring

/-- Without `ioffset` all frequencies get the slope at the operating point. -/
theorem ac_slope (m : Mods F) (hic : m.icNow = none) (hio : m.ioff = 0) (core : F → F × F) (n : ℕ) (x : F) :
    (acEvals (m.eval false core) n x).f1 = m.scale * (1 + m.tc1 * m.dT + m.tc2 * m.dT ^ 2) * (core x).2 := by
  rw [(ac_drift m hic core n x).2, hio, temp_eq]; simp

end

/-! ## EXP -/

/-- a rise that starts at `td`, with time constant `tau` -/
noncomputable def rise (td tau t : ℝ) : ℝ := if t > td then 1 - expNeg (t - td) tau else 0

/-- one pulse -/
noncomputable def Exp.pulse (e : Exp) (t : ℝ) : ℝ := (e.pv - e.iv) * (rise e.td1 e.tau1 t - rise e.td2 e.tau2 t)

theorem add_eq (e : Exp) (t ev : ℝ) : e.add t ev = ev + e.pulse t := by
  simp only [Exp.add, Exp.pulse, rise]
  split <;> split <;> ring

theorem loop_eq (e : Exp) (hp : 0 < e.period) (n k : ℕ) (t ev : ℝ) (hk : t < k * e.period) (hk' : (k : ℝ) * e.period ≤ t + e.period ∨ k = 0)
    (hn : k ≤ n) :
    e.loop n t ev = some (ev + ∑ j ∈ Finset.range k, e.pulse (t - j * e.period)) := by
  induction n generalizing k t ev with
  | zero =>
    obtain rfl : k = 0 := by omega
    have : ¬ t ≥ 0 := by simpa using hk
    simp [Exp.loop, this]
  | succ n ih =>
    rcases k with _ | k
    · have : ¬ t ≥ 0 := by simpa using hk
      simp [Exp.loop, this]
    · have ht : t ≥ 0 := by
        rcases hk' with h | h
        · push_cast at h
          have : (0 : ℝ) ≤ k * e.period := by positivity
          linarith
        · omega
      rw [Exp.loop, if_pos ht, ih k (t - e.period) (e.add t ev) (by push_cast at hk; linarith) ?_ (by omega)]
      · rw [add_eq, Finset.sum_range_succ' (fun j : ℕ => e.pulse (t - j * e.period))]
        congr 1
        have : ∀ j : ℕ, t - e.period - j * e.period = t - ((j + 1 : ℕ) : ℝ) * e.period := by
          intro j; push_cast; ring
        simp only [this]
        simp only [Nat.cast_zero, zero_mul, sub_zero]
        ring
      · left
        rcases hk' with h | h
        · push_cast at h; linarith
        · omega

/-- C63, EXP: the sum of the pulses that have begun, one per period; enough turns are `⌊t/period⌋ + 1`. -/
theorem exp_value (e : Exp) (hp : 0 < e.period) (t : ℝ) (ht : 0 ≤ t) (n : ℕ) (hn : ⌊t / e.period⌋₊ + 1 ≤ n) :
    e.value n t = some (e.iv + ∑ j ∈ Finset.range (⌊t / e.period⌋₊ + 1), e.pulse (t - j * e.period)) := by
  refine loop_eq e hp n _ t e.iv ?_ (Or.inl ?_) hn
  · have := Nat.lt_floor_add_one (t / e.period)
    rw [div_lt_iff₀ hp] at this
    push_cast; linarith
  · have := Nat.floor_le (div_nonneg ht hp.le)
    rw [le_div_iff₀ hp] at this
    push_cast; linarith

/-- Before time 0 there is only the initial value. -/
theorem exp_before (e : Exp) (t : ℝ) (ht : t < 0) (n : ℕ) : e.value n t = some e.iv := by
  cases n <;> simp [Exp.value, Exp.loop, not_le.2 ht]

/-- A period of zero, or less, never ends. -/
theorem exp_hangs (e : Exp) (hp : e.period ≤ 0) (t : ℝ) (ht : 0 ≤ t) (n : ℕ) : e.value n t = none := by
  have : ∀ (n : ℕ) (t ev : ℝ), 0 ≤ t → e.loop n t ev = none := by
    intro n
    induction n with
    | zero => intro t ev h; simp [Exp.loop, h]
    | succ n ih => intro t ev h; rw [Exp.loop, if_pos h]; exact ih _ _ (by linarith)
  exact this n t e.iv ht

theorem rise_continuous (td tau : ℝ) (htau : 0 < tau) : Continuous (rise td tau) := by
  have e : rise td tau = fun t => 1 - Real.exp (-(max t td - td) / tau) := by
    funext t
    simp only [rise, expNeg, htau.ne', if_false]
    split
    · rename_i h; rw [max_eq_left (le_of_lt h)]
    · rename_i h; rw [max_eq_right (not_lt.1 h)]; simp
  rw [e]
  fun_prop

/-- With positive time constants and delays not negative the source never jumps. -/
theorem exp_continuous (e : Exp) (hp : 0 < e.period) (h1 : 0 < e.tau1) (h2 : 0 < e.tau2) (hd1 : 0 ≤ e.td1) (hd2 : 0 ≤ e.td2)
    (v : ℝ → ℝ) (hv : ∀ t, 0 ≤ t → ∃ n, e.value n t = some (v t)) : ContinuousOn v (Set.Ici 0) := by
  have hpulse : Continuous e.pulse := by
    have := rise_continuous e.td1 e.tau1 h1
    have := rise_continuous e.td2 e.tau2 h2
    unfold Exp.pulse
    fun_prop
  have hzero : ∀ t, t ≤ 0 → e.pulse t = 0 := by
    intro t ht
    simp [Exp.pulse, rise, not_lt.2 (le_trans ht hd1), not_lt.2 (le_trans ht hd2)]
  have mono : ∀ (n k : ℕ) (t ev r : ℝ), e.loop n t ev = some r → e.loop (n + k) t ev = some r := by
    intro n
    induction n with
    | zero =>
      intro k t ev r h
      by_cases ht : t ≥ 0
      · simp [Exp.loop, ht] at h
      · cases k <;> simpa [Exp.loop, ht] using h
    | succ n ih =>
      intro k t ev r h
      rw [show n + 1 + k = (n + k) + 1 by omega]
      by_cases ht : t ≥ 0
      · rw [Exp.loop, if_pos ht] at h ⊢
        exact ih k _ _ _ h
      · simpa [Exp.loop, ht] using h
  have val : ∀ t, 0 ≤ t → v t = e.iv + ∑ j ∈ Finset.range (⌊t / e.period⌋₊ + 1), e.pulse (t - j * e.period) := by
    intro t ht
    obtain ⟨n, hn⟩ := hv t ht
    have := mono n (⌊t / e.period⌋₊ + 1) _ _ _ hn
    have h2 := exp_value e hp t ht (n + (⌊t / e.period⌋₊ + 1)) (by omega)
    rw [Exp.value] at h2
    rw [h2] at this
    exact (Option.some.inj this).symm
  intro t0 ht0
  obtain ⟨N, hN⟩ := exists_nat_gt ((t0 + 1) / e.period)
  have hc : Continuous fun t : ℝ => e.iv + ∑ j ∈ Finset.range (N + 1), e.pulse (t - j * e.period) := by fun_prop
  have agree : ∀ t, t < t0 + 1 → 0 ≤ t → v t = e.iv + ∑ j ∈ Finset.range (N + 1), e.pulse (t - j * e.period) := by
    intro t ht1 ht
    rw [val t ht]
    congr 1
    refine Finset.sum_subset (fun j hj => ?_) (fun j _ hj => ?_)
    · have h1 : (⌊t / e.period⌋₊ : ℝ) ≤ t / e.period := Nat.floor_le (div_nonneg ht hp.le)
      have h2 : t / e.period ≤ (t0 + 1) / e.period := by gcongr
      have h3 : (⌊t / e.period⌋₊ : ℝ) < (N : ℝ) := by linarith
      have h4 : ⌊t / e.period⌋₊ < N := by exact_mod_cast h3
      simp only [Finset.mem_range] at hj ⊢
      omega
    · refine hzero _ ?_
      have h1 : ⌊t / e.period⌋₊ + 1 ≤ j := by simpa [Finset.mem_range, not_lt] using hj
      have h2 : (⌊t / e.period⌋₊ : ℝ) + 1 ≤ (j : ℝ) := by exact_mod_cast h1
      have h3 := Nat.lt_floor_add_one (t / e.period)
      have h4 : t / e.period < j := lt_of_lt_of_le h3 h2
      rw [div_lt_iff₀ hp] at h4
      linarith
  refine (hc.continuousWithinAt).congr_of_eventuallyEq ?_ ?_
  · have near : ∀ᶠ t in 𝓝[Set.Ici 0] t0, t < t0 + 1 := nhdsWithin_le_nhds (eventually_lt_nhds (by linarith))
    filter_upwards [near, self_mem_nhdsWithin] with t ht ht0'
    exact agree t ht ht0'
  · exact agree t0 (by linarith) ht0

/-! ## SFFM -/

/-- SFFM stays within its amplitude; without modulation, or without a signal, it is a sine. -/
theorem sffm_range (s : Sffm) (t : ℝ) :
    |s.value t - s.offset| ≤ |s.amplitude| ∧
      (s.modindex = 0 ∨ s.signal = 0 → s.value t = s.offset + s.amplitude * Real.sin (2 * Real.pi * s.carrier * t)) := by
  constructor
  · simp only [Sffm.value, add_sub_cancel_left, abs_mul]
    exact mul_le_of_le_one_right (abs_nonneg _) (Real.abs_sin_le_one _)
  · rintro (h | h) <;> simp [Sffm.value, h]

/-! ## AC modifiers -/

open Complex in
theorem polar_eq (a : ℝ) : polar a = exp (a * I) := by
  apply Complex.ext
  · rw [exp_ofReal_mul_I_re]; rfl
  · rw [exp_ofReal_mul_I_im]; rfl

open Complex in
/-- C63, AC: a real gain becomes a single pole at `bandwidth`, turned by `phase` degrees, delayed by `delay`. -/
theorem ac_final (b phase delay freq y : ℝ) (hb : b ≠ 0) (hd : freq * delay ≤ 100000) :
    (AcMods.mk (some b) phase delay).final freq y =
      y / (1 + I * (freq / b)) * exp (I * (phase * Real.pi / 180)) * exp (-(I * (2 * Real.pi * freq * delay))) := by
  have hden : (1 : ℂ) + I * (freq / b) ≠ 0 := by
    intro h
    have := congrArg Complex.re h
    rw [show (freq : ℂ) / b = ((freq / b : ℝ) : ℂ) by push_cast; ring] at this
    simp at this
  have pole : ((⟨y / (1 + freq / b * (freq / b)), -(y / (1 + freq / b * (freq / b))) * (freq / b)⟩ : ℂ)) =
      y / (1 + I * (freq / b)) := by
    rw [eq_div_iff hden, show (freq : ℂ) / b = ((freq / b : ℝ) : ℂ) by push_cast; ring]
    generalize freq / b = q
    have hq : (1 : ℝ) + q * q ≠ 0 := by nlinarith [sq_nonneg q]
    apply Complex.ext
    · simp; field_simp
    · simp
  have ph : (if phase ≠ 0 then (y / (1 + I * (freq / b)) : ℂ) * polar (phase * dtor) else y / (1 + I * (freq / b))) =
      y / (1 + I * (freq / b)) * exp (I * (phase * Real.pi / 180)) := by
    by_cases h : phase = 0
    · simp [h]
    · rw [if_pos h, polar_eq, dtor]
      congr 2
      push_cast; ring
  simp only [AcMods.final, if_pos hb, ofReal_re, pole]
  rw [ph]
  by_cases h : delay = 0
  · simp [h]
  · rw [if_pos h, if_neg (not_lt.2 hd), polar_eq, dtor]
    congr 2
    push_cast; ring

open Complex in
/-- Without `bandwidth` any gain, also a complex one, is turned and delayed. -/
theorem ac_final_no_bandwidth (phase delay freq : ℝ) (y : ℂ) (hd : freq * delay ≤ 100000) :
    (AcMods.mk none phase delay).final freq y =
      y * exp (I * (phase * Real.pi / 180)) * exp (-(I * (2 * Real.pi * freq * delay))) := by
  have ph : (if phase ≠ 0 then y * polar (phase * dtor) else y) = y * exp (I * (phase * Real.pi / 180)) := by
    by_cases h : phase = 0
    · simp [h]
    · rw [if_pos h, polar_eq, dtor]
      congr 2
      push_cast; ring
  simp only [AcMods.final]
  rw [ph]
  by_cases h : delay = 0
  · simp [h]
  · rw [if_pos h, if_neg (not_lt.2 hd), polar_eq, dtor]
    congr 2
    push_cast; ring

/-- A bandwidth drops the imaginary part of a complex gain. -/
theorem ac_bandwidth_drops_imaginary : (AcMods.mk (some 1) 0 0).final 0 ⟨0, 1⟩ = 0 := by
  simp [AcMods.final]
  rfl

/-- A delay of more than 100000 cycles is no delay. -/
theorem ac_long_delay (b : Option ℝ) (phase delay freq : ℝ) (y : ℂ) (h : 100000 < freq * delay) :
    (AcMods.mk b phase delay).final freq y = (AcMods.mk b phase 0).final freq y := by
  have hd : delay ≠ 0 := by rintro rfl; norm_num at h
  have hp : polar (-360 * dtor * 0) = 1 := by apply Complex.ext <;> simp [polar]
  simp only [AcMods.final, gt_iff_lt, if_pos hd, if_pos h, hp, mul_one, ne_eq, not_true_eq_false, if_false]

/-! ## examples -/

/-- `1 + 2x + 3x^2` at 2: 17 and 14, clamped at 10 flat -/
example : polyEval (⟨1, 0, 0, 0, 0, 0, none⟩ : Mods ℚ) ⟨true, -100, 100⟩ [1, 2, 3] false 2 = some ⟨2, 17, 14⟩ ∧
    polyEval (⟨1, 0, 0, 0, 0, 0, none⟩ : Mods ℚ) ⟨true, -100, 10⟩ [1, 2, 3] false 2 = some ⟨2, 10, 0⟩ := by decide +kernel

/-- `|x|^3 sign(x)` at -2 -/
example : HasDerivAt (posyLaw true [(3, 1)]) (posyCore true false [(3, 1)] (-2)).2 (-2) :=
  (posy_report true false (by simp) [(3, 1)] (-2) (by norm_num)).2

/-- a VCVS with a saturating gain of 100, scaled by 2, at 0.1 V -/
example :
    let m : Mods ℝ := ⟨2, 0, 0, 0, 0, 3, none⟩
    let d : Desc ℝ := ⟨.vcvs, 1, 0, false, some (m.eval false (tanhCore 30 100 15))⟩
    let a : Ext ℝ := ⟨1/10, 5, 0, 0, .inode⟩
    let s : Elt ℝ := { Elt.new 0 with loss0 := 1 }
    (fun p : ℝ × ℝ => law 1 (modified m fun x => 15 * Real.tanh (100 * x / 15)) .vcvs p - (s.eval d a).amps p.1 p.2)
      =o[𝓝 ((1/10 : ℝ), (5 : ℝ))] fun p => p - ((1/10 : ℝ), (5 : ℝ)) := by
  intro m d a s
  exact modified_tangent d m rfl rfl _ _ a s (by norm_num [d]) (by simp [d]) rfl
    (tanh_report 30 100 15 (1/10) (by norm_num) (by norm_num) (by norm_num)) (by simp [d]) (by simp [d, s]) (by simp [d])

/-- EXP, second period: two pulses have begun -/
example (n : ℕ) (hn : 2 ≤ n) :
    let e : Exp := ⟨0, 1, 1, 1, 2, 1, 4⟩
    e.value n 5 = some (0 + ∑ j ∈ Finset.range 2, e.pulse (5 - j * 4)) := by
  intro e
  have h : ⌊(5 : ℝ) / 4⌋₊ + 1 = 2 := by
    rw [Nat.floor_eq_iff (by norm_num) |>.2 (show ((1 : ℕ) : ℝ) ≤ 5 / 4 ∧ (5 : ℝ) / 4 < (1 : ℕ) + 1 by norm_num)]
  have := exp_value e (by norm_num [e]) 5 (by norm_num) n (by simpa only [e, h] using hn)
  simpa only [e, h] using this

/-- a pole at 1 kHz, at 1 kHz -/
example : (AcMods.mk (some 1000) 0 0).final 1000 (2 : ℝ) = 2 / (1 + Complex.I) := by
  have := ac_final 1000 0 0 1000 2 (by norm_num) (by norm_num)
  simpa using this

end Gnucap.Behav
