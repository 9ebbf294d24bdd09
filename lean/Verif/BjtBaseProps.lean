import Verif.BjtBaseModel
import Mathlib.Analysis.SpecialFunctions.Trigonometric.ArctanDeriv
import Mathlib.Analysis.SpecialFunctions.Trigonometric.Bounds
import Mathlib.Analysis.Complex.Trigonometric
import Mathlib.Analysis.Calculus.Deriv.MeanValue
import Mathlib.Analysis.Real.Pi.Bounds

/-!
# The base of a bipolar transistor (properties)
-/

namespace Gnucap.BjtBase.Props
open Real

/-! ## the share of the variable part, `3 (tan z - z) / (z tan² z)` -/

/-- the same in cotangents -/
noncomputable def share (z : ℝ) : ℝ := cos z / (z * sin z) - (cos z / sin z) ^ 2

lemma share_eq {z : ℝ} (hz : z ≠ 0) (hs : sin z ≠ 0) (hc : cos z ≠ 0) :
    3 * (tan z - z) / z / tan z / tan z = 3 * share z := by
  rw [tan_eq_sin_div_cos, share]
  field_simp

lemma sc_le {z : ℝ} (h : 0 ≤ z) : sin z * cos z ≤ z := by
  have h1 := sin_le h
  have h2 := cos_le_one z
  have h3 : |sin z| ≤ |z| := abs_sin_le_abs
  have h4 : |cos z| ≤ 1 := abs_cos_le_one z
  have h5 : sin z * cos z ≤ |sin z| * |cos z| := by rw [← abs_mul]; exact le_abs_self _
  have h6 : |sin z| * |cos z| ≤ |z| * 1 := mul_le_mul h3 h4 (abs_nonneg _) (abs_nonneg _)
  rw [abs_of_nonneg h] at h6
  linarith

/-- a function on [0, π/2) that is 0 at 0 and has a slope that is nowhere negative -/
lemma nonneg_of_slope {f f' : ℝ → ℝ} (h0 : f 0 = 0) (hf : ∀ z, 0 ≤ z → z < π / 2 → HasDerivAt f (f' z) z)
    (hp : ∀ z, 0 ≤ z → z < π / 2 → 0 ≤ f' z) {z : ℝ} (h1 : 0 ≤ z) (h2 : z < π / 2) : 0 ≤ f z := by
  have hm : MonotoneOn f (Set.Ico 0 (π / 2)) := by
    apply monotoneOn_of_deriv_nonneg (convex_Ico _ _)
    · intro x hx; exact (hf x hx.1 hx.2).continuousAt.continuousWithinAt
    · intro x hx
      rw [interior_Ico] at hx
      exact (hf x hx.1.le hx.2).differentiableAt.differentiableWithinAt
    · intro x hx
      rw [interior_Ico] at hx
      rw [(hf x hx.1.le hx.2).deriv]; exact hp x hx.1.le hx.2
  have := hm ⟨le_refl 0, by positivity⟩ ⟨h1, h2⟩ h1
  rw [h0] at this; exact this

lemma cos_pos' {z : ℝ} (h1 : 0 ≤ z) (h2 : z < π / 2) : 0 < cos z :=
  cos_pos_of_mem_Ioo ⟨by linarith [pi_pos], h2⟩

lemma tan_deriv {z : ℝ} (h1 : 0 ≤ z) (h2 : z < π / 2) : HasDerivAt tan (1 + tan z ^ 2) z := by
  have hc := (cos_pos' h1 h2).ne'
  have := hasDerivAt_tan hc
  convert this using 1
  rw [tan_eq_sin_div_cos]
  field_simp
  nlinarith [sin_sq_add_cos_sq z]

lemma tan_nonneg' {z : ℝ} (h1 : 0 ≤ z) (h2 : z < π / 2) : 0 ≤ tan z :=
  tan_nonneg_of_nonneg_of_le_pi_div_two h1 h2.le

/-- `z sec² z ≥ tan z` -/
lemma zsec {z : ℝ} (h1 : 0 ≤ z) (h2 : z < π / 2) : tan z ≤ z * (1 + tan z ^ 2) := by
  have hc := cos_pos' h1 h2
  have := sc_le h1
  have e : 1 + tan z ^ 2 = 1 / cos z ^ 2 := by
    rw [tan_eq_sin_div_cos]; field_simp; nlinarith [sin_sq_add_cos_sq z]
  rw [e, tan_eq_sin_div_cos, mul_one_div, div_le_div_iff₀ hc (by positivity)]
  nlinarith

/-- `tan z - z ≤ z tan² z / 3` -/
lemma upper {z : ℝ} (h1 : 0 ≤ z) (h2 : z < π / 2) : 0 ≤ z * tan z ^ 2 - 3 * (tan z - z) := by
  refine nonneg_of_slope (f := fun z => z * tan z ^ 2 - 3 * (tan z - z))
    (f' := fun z => 2 * tan z * (z * (1 + tan z ^ 2) - tan z)) (by simp) ?_ ?_ h1 h2
  · intro x hx1 hx2
    have ht := tan_deriv hx1 hx2
    have := ((hasDerivAt_id x).mul (ht.pow 2)).sub ((ht.sub (hasDerivAt_id x)).const_mul 3)
    refine HasDerivAt.congr_deriv this ?_
    simp only [id, Pi.pow_apply]
    ring
  · intro x hx1 hx2
    have := zsec hx1 hx2
    have := tan_nonneg' hx1 hx2
    apply mul_nonneg <;> linarith

/-- Wilker's inequality -/
lemma wilker {z : ℝ} (h1 : 0 ≤ z) (h2 : z < π / 2) : 0 ≤ z * tan z + sin z ^ 2 - 2 * z ^ 2 := by
  refine nonneg_of_slope (f := fun z => z * tan z + sin z ^ 2 - 2 * z ^ 2)
    (f' := fun z => tan z + z * (1 + tan z ^ 2) + 2 * sin z * cos z - 4 * z) (by simp) ?_ ?_ h1 h2
  · intro x hx1 hx2
    have ht := tan_deriv hx1 hx2
    have := (((hasDerivAt_id x).mul ht).add ((hasDerivAt_sin x).pow 2)).sub (((hasDerivAt_id x).pow 2).const_mul 2)
    refine HasDerivAt.congr_deriv this ?_
    simp only [id]
    ring
  · intro x hx1 hx2
    refine nonneg_of_slope (f := fun z => tan z + z * (1 + tan z ^ 2) + 2 * sin z * cos z - 4 * z)
      (f' := fun z => (1 + tan z ^ 2) + ((1 + tan z ^ 2) + z * (2 * tan z * (1 + tan z ^ 2)))
        + 2 * (cos z ^ 2 - sin z ^ 2) - 4) (by simp) ?_ ?_ hx1 hx2
    · intro y hy1 hy2
      have ht := tan_deriv hy1 hy2
      have := ((ht.add ((hasDerivAt_id y).mul ((ht.pow 2).const_add 1))).add
        (((hasDerivAt_sin y).mul (hasDerivAt_cos y)).const_mul 2)).sub ((hasDerivAt_id y).const_mul 4)
      have := this.congr_deriv (g' := (1 + tan y ^ 2) + ((1 + tan y ^ 2) + y * (2 * tan y * (1 + tan y ^ 2)))
        + 2 * (cos y ^ 2 - sin y ^ 2) - 4) (by simp only [id, Pi.pow_apply]; ring)
      refine this.congr_of_eventuallyEq (Filter.Eventually.of_forall fun w => ?_)
      simp only [id, Pi.add_apply, Pi.sub_apply, Pi.mul_apply, Pi.pow_apply]
      ring
    · intro y hy1 hy2
      have hc := cos_pos' hy1 hy2
      have hz := zsec hy1 hy2
      have ht := tan_nonneg' hy1 hy2
      have e1 : cos y ^ 2 * (1 + tan y ^ 2) = 1 := by
        rw [tan_eq_sin_div_cos]; field_simp; nlinarith [sin_sq_add_cos_sq y]
      have e2 : sin y ^ 2 = 1 - cos y ^ 2 := by nlinarith [sin_sq_add_cos_sq y]
      rw [e2]
      have k : 0 ≤ tan y * (y * (1 + tan y ^ 2) - tan y) := mul_nonneg ht (by linarith)
      have c2 : 0 < cos y ^ 2 := by positivity
      set T := tan y ^ 2 with hT
      have hT0 : 0 ≤ T := by positivity
      have : tan y * (y * (1 + T) - tan y) = tan y * y * (1 + T) - T := by rw [hT]; ring
      rw [this] at k
      -- 2 T + 2 y t (1+T) + 4 c² - 4 ≥ 4 T + 4 c² - 4 = 4 (T - T c²... )
      have q : cos y ^ 2 * T = 1 - cos y ^ 2 := by linarith
      nlinarith [mul_nonneg hT0 hT0, mul_nonneg hT0 c2.le, mul_nonneg hT0 (mul_nonneg hT0 c2.le)]

lemma share_deriv {z : ℝ} (hz : z ≠ 0) (hs : sin z ≠ 0) :
    HasDerivAt share (-(z * sin z + cos z * sin z ^ 2 - 2 * z ^ 2 * cos z) / (z ^ 2 * sin z ^ 3)) z := by
  have hd : z * sin z ≠ 0 := mul_ne_zero hz hs
  have := ((hasDerivAt_cos z).div ((hasDerivAt_id z).mul (hasDerivAt_sin z)) hd).sub
    (((hasDerivAt_cos z).div (hasDerivAt_sin z) hs).pow 2)
  refine HasDerivAt.congr_deriv this ?_
  simp only [id, Pi.mul_apply, Pi.div_apply, show (2 - 1 : ℕ) = 1 from rfl, pow_one, Nat.cast_ofNat]
  field_simp
  have e : cos z ^ 2 = 1 - sin z ^ 2 := by nlinarith [sin_sq_add_cos_sq z]
  ring_nf
  simp only [show cos z ^ 3 = cos z * cos z ^ 2 from by ring, e]
  ring

lemma share_anti : AntitoneOn share (Set.Ioo 0 (π / 2)) := by
  have key : ∀ x ∈ Set.Ioo 0 (π / 2), HasDerivAt share (-(x * sin x + cos x * sin x ^ 2 - 2 * x ^ 2 * cos x) / (x ^ 2 * sin x ^ 3)) x
      ∧ -(x * sin x + cos x * sin x ^ 2 - 2 * x ^ 2 * cos x) / (x ^ 2 * sin x ^ 3) ≤ 0 := by
    intro x hx
    have hs : 0 < sin x := sin_pos_of_pos_of_lt_pi hx.1 (by linarith [hx.2, pi_pos])
    have hc := cos_pos' hx.1.le hx.2
    refine ⟨share_deriv hx.1.ne' hs.ne', ?_⟩
    have w := wilker hx.1.le hx.2
    rw [tan_eq_sin_div_cos] at w
    have : 0 ≤ cos x * (x * (sin x / cos x) + sin x ^ 2 - 2 * x ^ 2) := mul_nonneg hc.le w
    have e : cos x * (x * (sin x / cos x) + sin x ^ 2 - 2 * x ^ 2)
        = x * sin x + cos x * sin x ^ 2 - 2 * x ^ 2 * cos x := by field_simp
    rw [e] at this
    apply div_nonpos_of_nonpos_of_nonneg
    · linarith
    · have := hx.1; positivity
  apply antitoneOn_of_deriv_nonpos (convex_Ioo _ _)
  · intro x hx; exact (key x hx).1.continuousAt.continuousWithinAt
  · intro x hx
    rw [interior_Ioo] at hx
    exact (key x hx).1.differentiableAt.differentiableWithinAt
  · intro x hx
    rw [interior_Ioo] at hx
    rw [(key x hx).1.deriv]; exact (key x hx).2

lemma share_bounds {z : ℝ} (h1 : 0 < z) (h2 : z < π / 2) : 0 < 3 * share z ∧ 3 * share z ≤ 1 := by
  have hs : 0 < sin z := sin_pos_of_pos_of_lt_pi h1 (by linarith [pi_pos])
  have hc := cos_pos' h1.le h2
  have ht : 0 < tan z := tan_pos_of_pos_of_lt_pi_div_two h1 h2
  have hlt := lt_tan h1 h2
  rw [← share_eq h1.ne' hs.ne' hc.ne']
  constructor
  · have : 0 < tan z - z := by linarith
    positivity
  · have := upper h1.le h2
    rw [div_div, div_div, div_le_one (by positivity)]
    nlinarith

/-! ## the angle -/

lemma angle_eq {a : ℝ} (h : 0 < a) :
    angle a = 14.59025 / 2.4317 / (sqrt (1 / a + 14.59025) + 1 / sqrt a) := by
  have hs : 0 < sqrt a := sqrt_pos.2 h
  have hq : sqrt (1 + 14.59025 * a) = sqrt (1 / a + 14.59025) * sqrt a := by
    rw [← sqrt_mul (by positivity)]; congr 1; field_simp
  have hk := sq_sqrt (show (0:ℝ) ≤ 1 / a + 14.59025 by positivity)
  have ha := sq_sqrt h.le
  set r := sqrt (1 / a + 14.59025)
  set s := sqrt a
  have hr : 0 ≤ r := sqrt_nonneg _
  rw [angle, hq, eq_div_iff (by positivity)]
  have hr2 : r ^ 2 * s ^ 2 = 1 + 14.59025 * s ^ 2 := by
    rw [hk, ha]; field_simp
  field_simp
  nlinarith

lemma angle_pos {a : ℝ} (h : 0 < a) : 0 < angle a := by
  have := sqrt_pos.2 h
  rw [angle_eq h]; positivity

lemma angle_mono {a b : ℝ} (h : 0 < a) (hab : a ≤ b) : angle a ≤ angle b := by
  have hb : 0 < b := lt_of_lt_of_le h hab
  rw [angle_eq h, angle_eq hb]
  have h1 := sqrt_pos.2 h
  have h2 := sqrt_pos.2 hb
  have h3 : sqrt (1 / b + 14.59025) ≤ sqrt (1 / a + 14.59025) := by
    apply sqrt_le_sqrt
    have := one_div_le_one_div_of_le h hab
    linarith
  have h4 : 1 / sqrt b ≤ 1 / sqrt a := one_div_le_one_div_of_le h1 (sqrt_le_sqrt hab)
  apply div_le_div_of_nonneg_left (by norm_num) (by positivity) (by linarith)

/-- up to five thousand million times the corner current the angle is below the pole -/
lemma angle_lt {a : ℝ} (h : 0 < a) (hb : a ≤ 5e9) : angle a < π / 2 := by
  have hs : 0 < sqrt a := sqrt_pos.2 h
  have hs2 := sq_sqrt h.le
  have hle : sqrt a ≤ 71000 := by
    rw [sqrt_le_left (by norm_num)]; linarith
  set s := sqrt a with hsd
  rw [angle, ← hsd, div_lt_iff₀ hs, div_lt_iff₀ (by norm_num)]
  have hp := pi_gt_d20
  have : sqrt (1 + 14.59025 * a) < 1 + 3.1415926535 / 2 * s * 2.4317 := by
    rw [sqrt_lt' (by positivity), ← hs2]
    nlinarith
  nlinarith

/-- from six thousand million on it is not -/
lemma angle_gt {a : ℝ} (hb : 6e9 ≤ a) : π / 2 < angle a := by
  have h : 0 < a := by linarith
  have hs : 0 < sqrt a := sqrt_pos.2 h
  have hs2 := sq_sqrt h.le
  have hle : 77459 ≤ sqrt a := by
    rw [le_sqrt (by norm_num) h.le]; linarith
  set s := sqrt a with hsd
  rw [angle, ← hsd, lt_div_iff₀ hs, lt_div_iff₀ (by norm_num)]
  have hp := pi_lt_d20
  have : 1 + 3.1415926536 / 2 * s * 2.4317 < sqrt (1 + 14.59025 * a) := by
    rw [lt_sqrt (by positivity), ← hs2]
    nlinarith
  nlinarith

lemma angle_lt_pi {a : ℝ} (h : 0 < a) : angle a < π := by
  rw [angle_eq h]
  have hs : 0 < sqrt a := sqrt_pos.2 h
  have h1 : (3.8 : ℝ) ≤ sqrt (1 / a + 14.59025) := by
    rw [le_sqrt (by norm_num) (by positivity)]
    have : 0 < 1 / a := by positivity
    have : (3.8 : ℝ) ^ 2 ≤ 14.59025 := by norm_num
    linarith
  have : 0 < 1 / sqrt a := by positivity
  rw [div_lt_iff₀ (by positivity)]
  have hp := pi_gt_d2
  nlinarith

/-! ## what the card says -/

/-- the documented parameters: a current that is on the card is the card's, else it is `IS`, else 1e-16 -/
def IsCurrent (own is : Option ℝ) (x : ℝ) : Prop :=
  (∀ y, own = some y → x = y) ∧ (own = none → ∀ y, is = some y → x = y) ∧ (own = none → is = none → x = 1 / 10 ^ 16)

/-- a leakage current that is on the card is the card's, else it is the obsolete factor times the saturation current, else none flows -/
def IsLeak (own fac : Option ℝ) (sat x : ℝ) : Prop :=
  (∀ y, own = some y → x = y) ∧ (own = none → ∀ y, fac = some y → x = y * sat) ∧ (own = none → fac = none → x = 0)

/-- `x` is the reciprocal of a quantity that is without limit if it is not given or given as 0 -/
def IsInverse (own : Option ℝ) (x : ℝ) : Prop :=
  (∀ y, own = some y → y ≠ 0 → x * y = 1) ∧ (own = none ∨ own = some 0 → x = 0)

theorem card_law (k : Card) :
    IsCurrent k.ibe k.is k.vals.ibe ∧ IsCurrent k.ibc k.is k.vals.ibc
    ∧ IsLeak k.ise k.c2 k.vals.ibe k.vals.ise ∧ IsLeak k.isc k.c4 k.vals.ibc k.vals.isc
    ∧ IsInverse k.vaf k.vals.invearlyvoltf ∧ IsInverse k.var k.vals.invearlyvoltr
    ∧ IsInverse k.ikf k.vals.invrollofff ∧ IsInverse k.ikr k.vals.invrolloffr
    ∧ ((k.rb = none → k.vals.rb = 0) ∧ ∀ y, k.rb = some y → k.vals.rb = y)
    ∧ ((k.rbm = none → k.vals.rbm = k.vals.rb) ∧ ∀ y, k.rbm = some y → k.vals.rbm = y) := by
  have hinv : ∀ o, IsInverse o (inv o) := by
    intro o
    constructor
    · rintro y rfl hy; simp [inv, hy]
    · rintro (rfl | rfl) <;> simp [inv]
  have hcur : ∀ own is : Option ℝ, IsCurrent own is (own.getD (match is with | some x => x | none => 1e-16)) := by
    intro own is
    cases own <;> cases is <;> (simp [IsCurrent]; try norm_num)
  have hleak : ∀ (own fac : Option ℝ) (s : ℝ), IsLeak own fac s (own.getD (fac.getD 0 * s)) := by
    intro own fac s
    cases own <;> cases fac <;> simp [IsLeak]
  refine ⟨hcur _ _, hcur _ _, hleak _ _ _, hleak _ _ _, hinv _, hinv _, hinv _, hinv _, ?_, ?_⟩
  · constructor
    · intro h; simp [Card.vals, h]
    · intro y h; simp [Card.vals, h]
  · constructor
    · intro h; simp [Card.vals, h]
    · intro y h; simp [Card.vals, h]

example : ({ is := some 2, c2 := some 3, rb := some 100 } : Card).vals.ise = 6
    ∧ ({ is := some 2, c2 := some 3, rb := some 100 } : Card).vals.rbm = 100 := by
  norm_num [Card.vals]

/-! ## the resistance -/

/-- the base charge, or the base current in corner currents, is where the formula means something -/
def Sound (v : Vals) (area qb cb : ℝ) : Prop :=
  match v.irb with
  | none => 1 ≤ qb
  | some i => (i = 0 → 1 ≤ qb) ∧ 0 ≤ i ∧ (i ≠ 0 → cb ≤ 5e9 * (i * area))

lemma crowd_eq {r p a : ℝ} (h : 0 < a) (hb : a ≤ 5e9) :
    crowd r p a = r + p * (3 * share (angle a)) := by
  have h1 := angle_pos h
  have h2 := angle_lt h hb
  have hs : sin (angle a) ≠ 0 := (sin_pos_of_pos_of_lt_pi h1 (by linarith [pi_pos])).ne'
  rw [← share_eq h1.ne' hs (cos_pos' h1.le h2).ne', crowd]
  ring

lemma floor_pos (x : ℝ) : 0 < max x 1e-9 := lt_of_lt_of_le (by norm_num) (le_max_right _ _)

lemma floor_le {cb i area : ℝ} (hi : 0 < i) (ha : 0 < area) (h : cb ≤ 5e9 * (i * area)) :
    max (cb / (i * area)) 1e-9 ≤ 5e9 := by
  apply max_le _ (by norm_num)
  rw [div_le_iff₀ (by positivity)]; exact h

/-- every case is a share between 0 and 1 of what lies between the two resistances -/
lemma rx_share (v : Vals) {area qb cb : ℝ} (ha : 0 < area) (hs : Sound v area qb cb) :
    ∃ f, 0 < f ∧ f ≤ 1 ∧ v.rx area qb cb = v.rbm / area + (v.rb / area - v.rbm / area) * f := by
  have inv1 : 1 ≤ qb → 0 < 1 / qb ∧ 1 / qb ≤ 1 := by
    intro h
    have : 0 < qb := by linarith
    exact ⟨by positivity, by rw [div_le_one this]; exact h⟩
  obtain ⟨o, ho⟩ : ∃ o, v.irb = o := ⟨_, rfl⟩
  cases o with
  | none =>
    simp only [Sound, ho] at hs
    refine ⟨1 / qb, (inv1 hs).1, (inv1 hs).2, ?_⟩
    simp only [Vals.rx, ho]; ring
  | some i =>
    simp only [Sound, ho] at hs
    by_cases h0 : i = 0
    · refine ⟨1 / qb, (inv1 (hs.1 h0)).1, (inv1 (hs.1 h0)).2, ?_⟩
      simp [Vals.rx, ho, h0]; ring
    · have hi : 0 < i := lt_of_le_of_ne hs.2.1 (Ne.symm h0)
      have hle := floor_le hi ha (hs.2.2 h0)
      have hp := floor_pos (cb / (i * area))
      have b := share_bounds (angle_pos hp) (angle_lt hp hle)
      refine ⟨_, b.1, b.2, ?_⟩
      simp only [Vals.rx, ho]
      rw [if_pos h0, crowd_eq hp hle]

/-- between `RBM` and `RB`, both of the device -/
theorem within (v : Vals) {area qb cb : ℝ} (ha : 0 < area) (h : v.rbm ≤ v.rb)
    (hs : Sound v area qb cb) : v.rbm / area ≤ v.rx area qb cb ∧ v.rx area qb cb ≤ v.rb / area := by
  obtain ⟨f, f0, f1, e⟩ := rx_share v ha hs
  have : v.rbm / area ≤ v.rb / area := by gcongr
  rw [e]
  constructor <;> nlinarith

/-- the element is there, conducts, and takes no power from nowhere: the voltage over it is the current times a resistance between
the two, and both have the same sign -/
theorem conducts (v : Vals) {area qb cb : ℝ} (ha : 0 < area) (h0 : 0 ≤ v.rbm) (h : v.rbm ≤ v.rb) (hb : 0 < v.rb)
    (hs : Sound v area qb cb) (vb vib : ℝ) :
    ∃ i r, (v.gx true area qb cb).current vb vib = some i ∧ vb - vib = i * r
      ∧ v.rbm ≤ r * area ∧ r * area ≤ v.rb ∧ 0 < r ∧ 0 ≤ i * (vb - vib) := by
  obtain ⟨f, f0, f1, e⟩ := rx_share v ha hs
  have w := within v ha h hs
  have hle : v.rbm / area ≤ v.rb / area := by gcongr
  have hpos : 0 < v.rx area qb cb := by
    have hm : 0 ≤ v.rbm / area := by positivity
    have hB : 0 < v.rb / area := by positivity
    rw [e]
    rcases hm.lt_or_eq with g | g
    · nlinarith
    · rw [← g]; simp only [sub_zero, zero_add]; positivity
  set r := v.rx area qb cb with hr
  refine ⟨1 / r * (vb - vib), r, ?_, ?_, ?_, ?_, hpos, ?_⟩
  · have c1 : ¬ ((true : Bool) = false ∨ (v.rb = 0 ∧ v.rbm = 0)) := by
      rintro (x | x)
      · cases x
      · exact hb.ne' x.1
    simp only [Vals.gx, if_neg c1]
    rw [← hr, if_neg hpos.ne']
    rfl
  · field_simp
  · have := w.1; rwa [div_le_iff₀ ha] at this
  · have := w.2; rwa [le_div_iff₀ ha] at this
  · have : 1 / r * (vb - vib) * (vb - vib) = (vb - vib) ^ 2 / r := by ring
    rw [this]; positivity

/-- more base charge or more base current: less resistance -/
theorem falls (v : Vals) {area qb qb' cb cb' : ℝ} (ha : 0 < area) (h : v.rbm ≤ v.rb)
    (hs : Sound v area qb cb) (hs' : Sound v area qb' cb') (hq : qb ≤ qb') (hc : cb ≤ cb') :
    v.rx area qb' cb' ≤ v.rx area qb cb := by
  have hd : 0 ≤ v.rb / area - v.rbm / area := by
    have : v.rbm / area ≤ v.rb / area := by gcongr
    linarith
  have plain : 1 ≤ qb → v.rbm / area + (v.rb / area - v.rbm / area) / qb' ≤ v.rbm / area + (v.rb / area - v.rbm / area) / qb := by
    intro h1
    have : (v.rb / area - v.rbm / area) / qb' ≤ (v.rb / area - v.rbm / area) / qb :=
      div_le_div_of_nonneg_left hd (by linarith) hq
    linarith
  obtain ⟨o, ho⟩ : ∃ o, v.irb = o := ⟨_, rfl⟩
  cases o with
  | none =>
    simp only [Sound, ho] at hs
    simp only [Vals.rx, ho]
    exact plain hs
  | some i =>
    simp only [Sound, ho] at hs hs'
    by_cases h0 : i = 0
    · have hp := plain (hs.1 h0)
      simp only [Vals.rx, ho, h0, ne_eq, not_true, if_false]
      exact hp
    · have hi : 0 < i := lt_of_le_of_ne hs.2.1 (Ne.symm h0)
      have l1 := floor_le hi ha (hs.2.2 h0)
      have l2 := floor_le hi ha (hs'.2.2 h0)
      have p1 := floor_pos (cb / (i * area))
      have p2 := floor_pos (cb' / (i * area))
      simp only [Vals.rx, ho]
      rw [if_pos h0, if_pos h0, crowd_eq p1 l1, crowd_eq p2 l2]
      have hm : max (cb / (i * area)) 1e-9 ≤ max (cb' / (i * area)) 1e-9 := by
        apply max_le_max _ le_rfl; gcongr
      have := share_anti ⟨angle_pos p1, angle_lt p1 l1⟩ ⟨angle_pos p2, angle_lt p2 l2⟩ (angle_mono p1 hm)
      nlinarith

/-- a device of `n` times the area with `n` times the current is `n` devices side by side -/
theorem parallel (v : Vals) {area qb cb n : ℝ} (ha : area ≠ 0) (hn : n ≠ 0) :
    v.rx (n * area) qb (n * cb) = v.rx area qb cb / n := by
  have e1 : ∀ x, x / (n * area) = x / area / n := by intro x; field_simp
  have e2 : ∀ i, n * cb / (i * (n * area)) = cb / (i * area) := by intro i; field_simp
  obtain ⟨o, ho⟩ : ∃ o, v.irb = o := ⟨_, rfl⟩
  cases o with
  | none => simp only [Vals.rx, ho, e1]; ring
  | some i =>
    simp only [Vals.rx, ho, e1, e2]
    split_ifs with h
    · simp only [crowd]; ring
    · ring

/-- a value without `IRB`: 100 ohm, of which 20 stay, at a base charge of 2 -/
noncomputable def demo : Vals := { ({ rb := some 100, rbm := some 20 } : Card).vals with }

example : demo.rx 1 2 0 = 60 ∧ demo.rx 4 2 0 = 15 ∧ Sound demo 1 2 0 := by
  norm_num [demo, Card.vals, Vals.rx, Sound]

/-! ### at zero bias, and at the corner current -/

/-- near 0 the share is 1 -/
lemma near {z : ℝ} (h1 : 0 < z) (h2 : z ≤ 1 / 2) : 1 - z ^ 2 ≤ 3 * share z := by
  have hp := pi_gt_d2
  have key : ∀ x, 0 ≤ x → x ≤ 1 / 2 → 0 ≤ 3 * (tan x - x) - (1 - x ^ 2) * x * tan x ^ 2 := by
    have hm : MonotoneOn (fun x => 3 * (tan x - x) - (1 - x ^ 2) * x * tan x ^ 2) (Set.Icc 0 (1 / 2)) := by
      have der : ∀ x, 0 ≤ x → x ≤ 1 / 2 → HasDerivAt (fun x => 3 * (tan x - x) - (1 - x ^ 2) * x * tan x ^ 2)
          (tan x * ((2 + 3 * x ^ 2) * tan x - 2 * (1 - x ^ 2) * x * (1 + tan x ^ 2))) x := by
        intro x hx1 hx2
        have ht := tan_deriv hx1 (show x < π / 2 by linarith)
        have := ((ht.sub (hasDerivAt_id x)).const_mul 3).sub
          (((((hasDerivAt_id x).pow 2).const_sub 1).mul (hasDerivAt_id x)).mul (ht.pow 2))
        refine HasDerivAt.congr_deriv this ?_
        simp only [id, Pi.pow_apply, Pi.mul_apply]
        norm_num
        ring
      have pos : ∀ x, 0 ≤ x → x ≤ 1 / 2 →
          0 ≤ tan x * ((2 + 3 * x ^ 2) * tan x - 2 * (1 - x ^ 2) * x * (1 + tan x ^ 2)) := by
        intro x hx1 hx2
        have hlt : x < π / 2 := by linarith
        have hc := cos_pos' hx1 hlt
        refine mul_nonneg (tan_nonneg' hx1 hlt) ?_
        have e : 1 + tan x ^ 2 = 1 / cos x ^ 2 := by
          rw [tan_eq_sin_div_cos]; field_simp; nlinarith [sin_sq_add_cos_sq x]
        have e2 : tan x = sin x * cos x / cos x ^ 2 := by rw [tan_eq_sin_div_cos]; field_simp
        have hsc : x - x ^ 3 ≤ sin x * cos x := by
          rcases hx1.lt_or_eq with g | g
          · have := sin_gt_sub_cube (x := 2 * x) (by linarith)
            rw [sin_two_mul] at this
            have e3 : (2 * x) ^ 3 = 8 * x ^ 3 := by ring
            have p3 : 0 < x ^ 3 := by positivity
            rw [e3] at this
            linarith
          · rw [← g]; simp
        rw [e, e2]
        have : (2 + 3 * x ^ 2) * (sin x * cos x / cos x ^ 2) - 2 * (1 - x ^ 2) * x * (1 / cos x ^ 2)
            = ((2 + 3 * x ^ 2) * (sin x * cos x) - 2 * (1 - x ^ 2) * x) / cos x ^ 2 := by field_simp
        rw [this]
        apply div_nonneg _ (by positivity)
        have h3 : 0 ≤ (2 + 3 * x ^ 2) * (sin x * cos x - (x - x ^ 3)) := mul_nonneg (by positivity) (by linarith)
        have h4 : 0 ≤ x ^ 3 * (1 - x ^ 2) := mul_nonneg (by positivity) (by nlinarith)
        nlinarith
      apply monotoneOn_of_deriv_nonneg (convex_Icc _ _)
      · intro x hx; exact (der x hx.1 hx.2).continuousAt.continuousWithinAt
      · intro x hx
        rw [interior_Icc] at hx
        exact (der x hx.1.le hx.2.le).differentiableAt.differentiableWithinAt
      · intro x hx
        rw [interior_Icc] at hx
        rw [(der x hx.1.le hx.2.le).deriv]; exact pos x hx.1.le hx.2.le
    intro x hx1 hx2
    have := hm (show (0:ℝ) ∈ Set.Icc 0 (1 / 2) by constructor <;> norm_num) ⟨hx1, hx2⟩ hx1
    simpa using this
  have hlt : z < π / 2 := by linarith
  have hs : 0 < sin z := sin_pos_of_pos_of_lt_pi h1 (by linarith)
  have ht : 0 < tan z := tan_pos_of_pos_of_lt_pi_div_two h1 hlt
  rw [← share_eq h1.ne' hs.ne' (cos_pos' h1.le hlt).ne', div_div, div_div, le_div_iff₀ (by positivity)]
  have := key z h1.le h2
  nlinarith

lemma angle_sq {a : ℝ} (h : 0 < a) : angle a ^ 2 ≤ 9.5 * a := by
  have hs : 0 < sqrt a := sqrt_pos.2 h
  have h1 : 1 / sqrt a ≤ sqrt (1 / a + 14.59025) := by
    rw [le_sqrt (by positivity) (by positivity), div_pow, sq_sqrt h.le]; norm_num
  have h2 : angle a ≤ 14.59025 / 2.4317 / (2 * (1 / sqrt a)) := by
    rw [angle_eq h]
    apply div_le_div_of_nonneg_left (by norm_num) (by positivity)
    linarith
  have h3 : 14.59025 / 2.4317 / (2 * (1 / sqrt a)) = 14.59025 / 2.4317 / 2 * sqrt a := by field_simp
  rw [h3] at h2
  have h4 := angle_pos h
  have h5 : angle a ^ 2 ≤ (14.59025 / 2.4317 / 2 * sqrt a) ^ 2 := by gcongr
  rw [mul_pow, sq_sqrt h.le] at h5
  have : (14.59025 / 2.4317 / 2 : ℝ) ^ 2 ≤ 9.5 := by norm_num
  nlinarith

/-- at zero bias it is `RB`, with `IRB` to one part in a hundred million of what varies -/
theorem zero_bias (v : Vals) (p : Bjt.Par) {area : ℝ} (ha : 0 < area) (h : v.rbm ≤ v.rb) :
    let q := v.par area p
    |v.rx area (q.base 0 0).qb ((q.currents 0 0).cpi + (q.currents 0 0).cmu) - v.rb / area|
      ≤ (v.rb / area - v.rbm / area) / 10 ^ 8 := by
  intro q
  have hd : 0 ≤ v.rb / area - v.rbm / area := by
    have : v.rbm / area ≤ v.rb / area := by gcongr
    linarith
  have half0 : ∀ vt n nl cs lk gm : ℝ, (Bjt.half vt n nl cs lk gm 0).c = 0 ∧ (Bjt.half vt n nl cs lk gm 0).cn = 0 := by
    intros; simp only [Bjt.half]; split_ifs <;> simp
  have hbe := half0 q.vt q.nf q.ne q.ise q.leakE q.gmin
  have hbc := half0 q.vt q.nr q.nc q.isc q.leakC q.gmin
  have hqb : (q.base 0 0).qb = 1 := by
    have m4 : max (0:ℝ) 1 = 1 := by norm_num
    simp only [Bjt.Par.base, Bjt.Par.be, Bjt.Par.bc, hbe.1, hbc.1, mul_zero, sub_zero, add_zero, m4, div_one]
    split_ifs
    · rfl
    · simp at *
    · norm_num
  have hcb : (q.currents 0 0).cpi + (q.currents 0 0).cmu = 0 := by
    simp only [Bjt.Par.currents, Bjt.Par.be, Bjt.Par.bc, hbe.1, hbe.2, hbc.1, hbc.2]
    simp
  rw [hqb, hcb]
  have plain : |v.rbm / area + (v.rb / area - v.rbm / area) / 1 - v.rb / area| ≤ (v.rb / area - v.rbm / area) / 10 ^ 8 := by
    rw [show v.rbm / area + (v.rb / area - v.rbm / area) / 1 - v.rb / area = 0 by ring]
    simp; positivity
  obtain ⟨o, ho⟩ : ∃ o, v.irb = o := ⟨_, rfl⟩
  cases o with
  | none => simpa only [Vals.rx, ho] using plain
  | some i =>
    by_cases h0 : i = 0
    · simp only [Vals.rx, ho, h0, ne_eq, not_true, if_false]; exact plain
    · simp only [Vals.rx, ho]
      rw [if_pos h0, zero_div, max_eq_right (by norm_num)]
      have pp : (0:ℝ) < 1e-9 := by norm_num
      rw [crowd_eq pp (by norm_num)]
      have hz := angle_sq pp
      have hz0 := angle_pos pp
      have hz1 : angle 1e-9 ≤ 1 / 2 := by
        by_contra hc
        push Not at hc
        have : (1 / 2 : ℝ) ^ 2 < angle 1e-9 ^ 2 := by gcongr
        norm_num at this hz
        linarith
      have n := near hz0 hz1
      have b := share_bounds hz0 (angle_lt pp (by norm_num))
      set f := 3 * share (angle 1e-9)
      have e : v.rbm / area + (v.rb / area - v.rbm / area) * f - v.rb / area
          = -((v.rb / area - v.rbm / area) * (1 - f)) := by ring
      rw [e, abs_neg, abs_of_nonneg (mul_nonneg hd (by linarith [b.2]))]
      have hf : 1 - f ≤ 1 / 10 ^ 8 := by
        have : (9.5 * 1e-9 : ℝ) ≤ 1 / 10 ^ 8 := by norm_num
        linarith
      calc (v.rb / area - v.rbm / area) * (1 - f) ≤ (v.rb / area - v.rbm / area) * (1 / 10 ^ 8) := by gcongr
        _ = _ := by ring

lemma corner_num {u x : ℝ} (u1 : 0.372 ≤ u) (u2 : u ≤ 0.377) (x1 : u / 1.2126 ≤ x) (x2 : x ≤ u / 1.2124) :
    |3 * (x - u ^ 2) - 1 / 2| ≤ 1 / 100 := by
  have k1 : 0 ≤ (u - 0.372) * (0.377 - u) := mul_nonneg (by linarith) (by linarith)
  have k2 : 0 ≤ (u - 0.3745) ^ 2 := by positivity
  have y1 : 0.8246 * u ≤ x := by
    refine le_trans ?_ x1
    rw [le_div_iff₀ (by norm_num)]; nlinarith
  have y2 : x ≤ 0.8249 * u := by
    refine le_trans x2 ?_
    rw [div_le_iff₀ (by norm_num)]; nlinarith
  rw [abs_le]
  constructor <;> nlinarith

/-- the share at the corner current -/
lemma corner : |3 * share (angle 1) - 1 / 2| ≤ 1 / 100 := by
  have hq1 : (3.9484 : ℝ) ≤ sqrt 15.59025 := by rw [le_sqrt (by norm_num) (by norm_num)]; norm_num
  have hq2 : sqrt 15.59025 ≤ (3.9486 : ℝ) := by rw [sqrt_le_left (by norm_num)]; norm_num
  have ez : angle 1 = (-1 + sqrt 15.59025) / 2.4317 := by
    rw [angle, sqrt_one, div_one]; norm_num
  have z1 : 1.2124 ≤ angle 1 := by rw [ez, le_div_iff₀ (by norm_num)]; linarith
  have z2 : angle 1 ≤ 1.2126 := by rw [ez, div_le_iff₀ (by norm_num)]; linarith
  set z := angle 1
  have p1 := pi_gt_d6
  have p2 := pi_lt_d6
  -- the complement
  set w := π / 2 - z with hw
  have w1 : 0.3581 ≤ w := by rw [hw]; linarith
  have w2 : w ≤ 0.3584 := by rw [hw]; linarith
  have hcz : cos z = sin w := by rw [hw, sin_pi_div_two_sub]
  have hsz : sin z = cos w := by rw [hw, cos_pi_div_two_sub]
  have wabs : |w| ≤ 1 := by rw [abs_of_nonneg (by linarith)]; linarith
  have bs := abs_le.1 (sin_bound wabs)
  have bc := abs_le.1 (cos_bound wabs)
  rw [abs_of_nonneg (show 0 ≤ w by linarith)] at bs bc
  have e2l : 0.3581 ^ 2 ≤ w ^ 2 := by gcongr
  have e2u : w ^ 2 ≤ 0.3584 ^ 2 := by gcongr
  have e3l : 0.3581 ^ 3 ≤ w ^ 3 := by gcongr
  have e3u : w ^ 3 ≤ 0.3584 ^ 3 := by gcongr
  have e4u : w ^ 4 ≤ 0.3584 ^ 4 := by gcongr
  have e5u : w ^ 5 ≤ 0.3584 ^ 5 := by gcongr
  norm_num at e2l e2u e3l e3u e4u e5u
  have s1 : 0.349 ≤ sin w := by linarith [bs.1]
  have s2 : sin w ≤ 0.352 := by linarith [bs.2]
  have c1 : 0.934 ≤ cos w := by linarith [bc.1]
  have c2 : cos w ≤ 0.938 := by linarith [bc.2]
  have u1 : 0.372 ≤ sin w / cos w := by rw [le_div_iff₀ (by linarith)]; linarith
  have u2 : sin w / cos w ≤ 0.377 := by rw [div_le_iff₀ (by linarith)]; linarith
  have es : share z = sin w / cos w / z - (sin w / cos w) ^ 2 := by
    rw [share, hcz, hsz]
    congr 1
    rw [div_div, mul_comm]
  rw [es]
  set u := sin w / cos w
  have q1 : u / 1.2126 ≤ u / z := by gcongr
  have q2 : u / z ≤ u / 1.2124 := by gcongr
  exact corner_num u1 u2 q1 q2

/-- at `IRB` it is half way, to a hundredth of what varies -/
theorem half_way (v : Vals) {area qb i : ℝ} (ha : 0 < area) (hi : 0 < i) (h : v.rbm ≤ v.rb) (hv : v.irb = some i) :
    |v.rx area qb (i * area) - (v.rb + v.rbm) / 2 / area| ≤ (v.rb - v.rbm) / area / 100 := by
  have e : max (i * area / (i * area)) 1e-9 = (1:ℝ) := by
    rw [div_self (by positivity)]; norm_num
  simp only [Vals.rx, hv]
  rw [if_pos hi.ne', e, crowd_eq one_pos (by norm_num)]
  have hd : 0 ≤ (v.rb - v.rbm) / area := div_nonneg (by linarith) ha.le
  have : v.rbm / area + (v.rb / area - v.rbm / area) * (3 * share (angle 1)) - (v.rb + v.rbm) / 2 / area
      = (v.rb - v.rbm) / area * (3 * share (angle 1) - 1 / 2) := by field_simp; ring
  rw [this, abs_mul, abs_of_nonneg hd]
  have := mul_le_mul_of_nonneg_left corner hd
  linarith

/-- a card with a corner current -/
noncomputable def sharp : Vals := ({ rb := some 100, rbm := some 0, irb := some 1e-15, is := some 1e-12 } : Card).vals

example : sharp.irb = some 1e-15 ∧ sharp.rbm ≤ sharp.rb ∧ Sound sharp 1 1 1e-9 := by
  refine ⟨rfl, ?_, ?_⟩ <;> norm_num [sharp, Card.vals, Sound]

/-! ## where it fails -/

/-- the constants put the pole of the tangent at a finite current: beyond six thousand million times `IRB` the part that varies is
negative, and with `RBM` zero so is the resistance -/
theorem negative (v : Vals) {area qb cb i : ℝ} (ha : 0 < area) (hi : 0 < i) (hv : v.irb = some i) (h0 : v.rbm = 0) (hb : 0 < v.rb)
    (hc : 6e9 * (i * area) ≤ cb) : v.rx area qb cb < 0 := by
  have hq : 6e9 ≤ max (cb / (i * area)) 1e-9 := by
    apply le_trans _ (le_max_left _ _)
    rw [le_div_iff₀ (by positivity)]; exact hc
  simp only [Vals.rx, hv]
  rw [if_pos hi.ne', h0]
  set a := max (cb / (i * area)) 1e-9
  have hp : 0 < a := by linarith
  have z1 := angle_gt hq
  have z2 := angle_lt_pi hp
  have zp := angle_pos hp
  have hs : 0 < sin (angle a) := sin_pos_of_pos_of_lt_pi zp z2
  have hcs : cos (angle a) < 0 := cos_neg_of_pi_div_two_lt_of_lt z1 (by linarith [pi_pos])
  have ht : tan (angle a) < 0 := by rw [tan_eq_sin_div_cos]; exact div_neg_of_pos_of_neg hs hcs
  simp only [crowd, zero_div, sub_zero, zero_add]
  rw [div_div, ← pow_two]
  have : 0 < v.rb / area := by positivity
  apply div_neg_of_neg_of_pos
  · apply div_neg_of_neg_of_pos _ zp
    nlinarith
  · have := ht.ne; positivity

/-- an ideal transistor -/
noncomputable def par0 : Bjt.Par := { vt := 1 / 40, ise := 0, isc := 0, bF := 100, bR := 1 }

/-- an analysis gets there: 0.75 V on the base of this card gives a conductance below zero -/
theorem negative_reached : ∃ g, sharp.eval true 1 par0 (3 / 4) 0 = .cond g ∧ g < 0 := by
  have hexp : (2:ℝ) ^ 30 ≤ exp 30 := by
    have h1 : (2:ℝ) ≤ exp 1 := by linarith [add_one_le_exp (1:ℝ)]
    calc (2:ℝ) ^ 30 ≤ exp 1 ^ 30 := by gcongr
      _ = exp 30 := by rw [← exp_nat_mul]; norm_num
  set q := sharp.par 1 par0 with hqd
  have hcb : 6e9 * (1e-15 * 1) ≤ (q.currents (3 / 4) 0).cpi + (q.currents (3 / 4) 0).cmu := by
    have e1 : (q.currents (3 / 4) 0).cmu = 0 := by
      norm_num [hqd, sharp, par0, Card.vals, Vals.par, Bjt.Par.currents, Bjt.Par.bc, Bjt.half]
    have e2 : (q.currents (3 / 4) 0).cpi = 1e-12 * (exp 30 - 1) / 100 := by
      norm_num [hqd, sharp, par0, Card.vals, Vals.par, Bjt.Par.currents, Bjt.Par.be, Bjt.half]
    rw [e1, e2]
    norm_num at hexp ⊢
    linarith
  have hneg := negative sharp (area := 1) (qb := (q.base (3 / 4) 0).qb) (i := 1e-15) one_pos (by norm_num) rfl rfl
    (by norm_num [sharp, Card.vals]) hcb
  refine ⟨1 / sharp.rx 1 (q.base (3 / 4) 0).qb ((q.currents (3 / 4) 0).cpi + (q.currents (3 / 4) 0).cmu), ?_, ?_⟩
  · have c1 : ¬ ((true : Bool) = false ∨ (sharp.rb = 0 ∧ sharp.rbm = 0)) := by
      norm_num [sharp, Card.vals]
    simp only [Vals.eval, Vals.gx, if_neg c1]
    rw [← hqd, if_neg hneg.ne]
  · exact one_div_neg.2 hneg

/-- a card with `RBM` and no `RB` stops every analysis that meets zero bias -/
theorem minimum_alone (k : Card) (p : Bjt.Par) {area r : ℝ} (h1 : k.rb = none) (h2 : k.rbm = some r) (hr : r ≠ 0)
    (h3 : k.irb = none) : k.vals.eval true area p 0 0 = .stop := by
  have half0 : ∀ vt n nl cs lk gm : ℝ, (Bjt.half vt n nl cs lk gm 0).c = 0 := by
    intros; simp only [Bjt.half]; split_ifs <;> simp
  have hqb : ((k.vals.par area p).base 0 0).qb = 1 := by
    have m4 : max (0:ℝ) 1 = 1 := by norm_num
    simp only [Bjt.Par.base, Bjt.Par.be, Bjt.Par.bc, half0, mul_zero, sub_zero, add_zero, m4, div_one]
    split_ifs
    · rfl
    · simp at *
    · norm_num
  have c1 : ¬ ((true : Bool) = false ∨ (k.vals.rb = 0 ∧ k.vals.rbm = 0)) := by
    simp [Card.vals, h1, h2, hr]
  simp only [Vals.eval, Vals.gx, if_neg c1]
  rw [hqb]
  rw [if_pos]
  simp [Vals.rx, Card.vals, h1, h2, h3]

example : ({ rbm := some 10 } : Card).rb = none := rfl

/-- the Early voltage takes it over `RB`: in the normal region, where the base charge is below 1 -/
theorem over (v : Vals) {area qb cb : ℝ} (ha : 0 < area) (h : v.rbm < v.rb) (hv : v.irb = none) (hq : 0 < qb) :
    v.rb / area < v.rx area qb cb ↔ qb < 1 := by
  simp only [Vals.rx, hv]
  have hd : 0 < v.rb / area - v.rbm / area := by
    have : v.rbm / area < v.rb / area := by gcongr
    linarith
  rw [show v.rb / area < v.rbm / area + (v.rb / area - v.rbm / area) / qb
    ↔ (v.rb / area - v.rbm / area) < (v.rb / area - v.rbm / area) / qb by constructor <;> intro _ <;> linarith]
  rw [lt_div_iff₀ hq]
  constructor
  · intro x; nlinarith
  · intro x; nlinarith

/-- a transistor with an Early voltage and no corner currents, its collector junction in reverse, is such a case -/
theorem over_reached (k : Card) (p : Bjt.Par) {area va vbe vbc : ℝ} (ha : 0 < area) (h1 : k.irb = none) (h2 : k.vaf = some va) (hva : 0 < va)
    (h3 : k.var = none) (h4 : k.ikf = none) (h5 : k.ikr = none) (hv : vbc < 0) (hb : k.vals.rbm < k.vals.rb) :
    let q := k.vals.par area p
    k.vals.rb / area < k.vals.rx area (q.base vbe vbc).qb ((q.currents vbe vbc).cpi + (q.currents vbe vbc).cmu) := by
  intro q
  have e : (q.base vbe vbc).qb = 1 / (1 - 1 / va * vbc) := by
    simp [q, Bjt.Par.base, Vals.par, Vals.oik, Vals.oikr, Card.vals, inv, h2, h3, h4, h5, hva.ne']
  have hd : 1 < 1 - 1 / va * vbc := by
    have : 1 / va * vbc < 0 := mul_neg_of_pos_of_neg (by positivity) hv
    linarith
  have hp : 0 < 1 - 1 / va * vbc := by linarith
  have hq : 0 < (q.base vbe vbc).qb := by rw [e]; positivity
  rw [over k.vals ha hb h1 hq, e, div_lt_one hp]
  exact hd

example : ({ rb := some 100, rbm := some 20, vaf := some 50 } : Card).vals.rbm
    < ({ rb := some 100, rbm := some 20, vaf := some 50 } : Card).vals.rb := by norm_num [Card.vals]

/-! ## the card in the device -/

/-- current of a diode of 1953 -/
noncomputable def Diode (is n vt v : ℝ) : ℝ := is * (exp (v / (vt * n)) - 1)

/-- A card without Early voltages, corner currents and leakage, no junction more than five thermal voltages in reverse, `gmin` 0: the
device is that of Ebers and Moll, `area` times -/
theorem ebers_moll (k : Card) (p : Bjt.Par) {area vbe vbc : ℝ} (h1 : k.vaf = none) (h2 : k.var = none) (h3 : k.ikf = none)
    (h4 : k.ikr = none) (h5 : k.ise = none) (h6 : k.isc = none) (h7 : k.c2 = none) (h8 : k.c4 = none) (hg : p.gmin = 0)
    (he : -5 * (p.vt * p.nf) < vbe) (hc : -5 * (p.vt * p.nr) < vbc) :
    let o := (k.vals.par area p).currents vbe vbc
    let f := Diode k.vals.ibe p.nf p.vt vbe
    let r := Diode k.vals.ibc p.nr p.vt vbc
    o.cpi + o.cmu = area * (f / p.bF + r / p.bR) ∧ o.cce = area * (f - r - r / p.bR) := by
  intro o f r
  have hbe : ((k.vals.par area p).be vbe).c = area * f ∧ ((k.vals.par area p).be vbe).cn = 0 := by
    constructor
    · simp only [Bjt.Par.be, Bjt.half, Vals.par, hg, if_pos he, f, Diode]; ring
    · simp [Bjt.Par.be, Bjt.half, Vals.par, Card.vals, h5, h7]
      split_ifs <;> rfl
  have hbc : ((k.vals.par area p).bc vbc).c = area * r ∧ ((k.vals.par area p).bc vbc).cn = 0 := by
    constructor
    · simp only [Bjt.Par.bc, Bjt.half, Vals.par, hg, if_pos hc, r, Diode]; ring
    · simp [Bjt.Par.bc, Bjt.half, Vals.par, Card.vals, h6, h8]
      split_ifs <;> rfl
  have hq : ((k.vals.par area p).base vbe vbc).qb = 1 := by
    simp [Bjt.Par.base, Vals.par, Vals.oik, Vals.oikr, Card.vals, inv, h1, h2, h3, h4]
  have bF : (k.vals.par area p).bF = p.bF := rfl
  have bR : (k.vals.par area p).bR = p.bR := rfl
  constructor
  · simp only [o, Bjt.Par.currents, hbe.1, hbe.2, hbc.1, hbc.2, bF, bR]; ring
  · simp only [o, Bjt.Par.currents, hbe.1, hbe.2, hbc.1, hbc.2, hq, bF, bR]; ring

/-- in such a device, at a bias where the base takes `IRB`, what is between the base terminals is half way between the two resistances -/
theorem half_way_device (k : Card) (p : Bjt.Par) {area vbe vbc i : ℝ} (h1 : k.vaf = none) (h2 : k.var = none) (h3 : k.ikf = none)
    (h4 : k.ikr = none) (h5 : k.ise = none) (h6 : k.isc = none) (h7 : k.c2 = none) (h8 : k.c4 = none) (hg : p.gmin = 0)
    (he : -5 * (p.vt * p.nf) < vbe) (hc : -5 * (p.vt * p.nr) < vbc) (ha : 0 < area) (hi : 0 < i) (hk : k.irb = some i)
    (h0 : 0 ≤ k.vals.rbm) (h : k.vals.rbm ≤ k.vals.rb) (hb : 0 < k.vals.rb)
    (hib : Diode k.vals.ibe p.nf p.vt vbe / p.bF + Diode k.vals.ibc p.nr p.vt vbc / p.bR = i) :
    ∃ g, k.vals.eval true area p vbe vbc = .cond g ∧ 0 < g
      ∧ |1 / g - (k.vals.rb + k.vals.rbm) / 2 / area| ≤ (k.vals.rb - k.vals.rbm) / area / 100 := by
  have em := (ebers_moll k p (area := area) h1 h2 h3 h4 h5 h6 h7 h8 hg he hc).1
  rw [hib, mul_comm] at em
  have hv : k.vals.irb = some i := hk
  have hs : Sound k.vals area ((k.vals.par area p).base vbe vbc).qb (i * area) := by
    simp only [Sound, hv]
    refine ⟨fun x => absurd x hi.ne', hi.le, fun _ => ?_⟩
    have : 0 < i * area := by positivity
    linarith
  obtain ⟨cur, r, c1, c2, _, _, rp, _⟩ := conducts k.vals ha h0 h hb hs 1 0
  have hw := half_way k.vals (qb := ((k.vals.par area p).base vbe vbc).qb) ha hi h hv
  have hne : ¬ ((true : Bool) = false ∨ (k.vals.rb = 0 ∧ k.vals.rbm = 0)) := by
    rintro (x | x)
    · cases x
    · exact hb.ne' x.1
  have hpos : 0 < k.vals.rx area ((k.vals.par area p).base vbe vbc).qb (i * area) := by
    simp only [Vals.gx, if_neg hne] at c1
    split_ifs at c1 with hz
    · simp [Gx.current] at c1
    · simp only [Gx.current, sub_zero, mul_one, Option.some.injEq] at c1
      rw [sub_zero, ← c1] at c2
      field_simp at c2
      rw [c2]; exact rp
  refine ⟨1 / k.vals.rx area ((k.vals.par area p).base vbe vbc).qb (i * area), ?_, by positivity, ?_⟩
  · simp only [Vals.eval, em, Vals.gx, if_neg hne]
    rw [if_neg hpos.ne']
  · rw [one_div_one_div]; exact hw

/-- A device of `n` times the area, `gmin` 0: `n` times the currents at every bias, in every region, and `n` times the base
conductance -/
theorem side_by_side (v : Vals) (p : Bjt.Par) {area n : ℝ} (ha : area ≠ 0) (hn : n ≠ 0) (hg : p.gmin = 0) (vbe vbc : ℝ) :
    let o := (v.par area p).currents vbe vbc
    let o' := (v.par (n * area) p).currents vbe vbc
    o'.cce = n * o.cce ∧ o'.cpi = n * o.cpi ∧ o'.cmu = n * o.cmu
      ∧ ∀ vb vib i, (v.eval true area p vbe vbc).current vb vib = some i →
          (v.eval true (n * area) p vbe vbc).current vb vib = some (n * i) := by
  intro o o'
  have hh : ∀ vt m nl cs lk w : ℝ, (Bjt.half vt m nl (cs * (n * area)) (lk * (n * area)) 0 w).c = n * (Bjt.half vt m nl (cs * area) (lk * area) 0 w).c
      ∧ (Bjt.half vt m nl (cs * (n * area)) (lk * (n * area)) 0 w).cn = n * (Bjt.half vt m nl (cs * area) (lk * area) 0 w).cn := by
    intro vt m nl cs lk w
    by_cases hlk : lk = 0
    · subst hlk
      simp only [Bjt.half]
      split_ifs <;> constructor <;> simp <;> ring
    · have z1 : lk * area ≠ 0 := mul_ne_zero hlk ha
      have z2 : lk * (n * area) ≠ 0 := mul_ne_zero hlk (mul_ne_zero hn ha)
      simp only [Bjt.half, if_neg z1, if_neg z2]
      split_ifs <;> constructor <;> ring
  have hbe := hh p.vt p.nf p.ne v.ibe v.ise vbe
  have hbc := hh p.vt p.nr p.nc v.ibc v.isc vbc
  have b1 : (v.par (n * area) p).be vbe = Bjt.half p.vt p.nf p.ne (v.ibe * (n * area)) (v.ise * (n * area)) 0 vbe := by
    simp only [Bjt.Par.be, Vals.par, hg]
  have b2 : (v.par area p).be vbe = Bjt.half p.vt p.nf p.ne (v.ibe * area) (v.ise * area) 0 vbe := by
    simp only [Bjt.Par.be, Vals.par, hg]
  have b3 : (v.par (n * area) p).bc vbc = Bjt.half p.vt p.nr p.nc (v.ibc * (n * area)) (v.isc * (n * area)) 0 vbc := by
    simp only [Bjt.Par.bc, Vals.par, hg]
  have b4 : (v.par area p).bc vbc = Bjt.half p.vt p.nr p.nc (v.ibc * area) (v.isc * area) 0 vbc := by
    simp only [Bjt.Par.bc, Vals.par, hg]
  rw [← b1, ← b2] at hbe
  rw [← b3, ← b4] at hbc
  have k1 : ∀ x y : ℝ, x / (n * area) * (n * y) = x / area * y := by intro x y; field_simp
  have k2 : ∀ x : ℝ, x / (n * area) = 0 ↔ x / area = 0 := by
    intro x; simp [ha, hn]
  have hq : ((v.par (n * area) p).base vbe vbc).qb = ((v.par area p).base vbe vbc).qb := by
    have o1 : (v.par (n * area) p).oik = v.invrollofff / (n * area) := rfl
    have o2 : (v.par area p).oik = v.invrollofff / area := rfl
    have o3 : (v.par (n * area) p).oikr = v.invrolloffr / (n * area) := rfl
    have o4 : (v.par area p).oikr = v.invrolloffr / area := rfl
    have o5 : (v.par (n * area) p).ivaf = (v.par area p).ivaf := rfl
    have o6 : (v.par (n * area) p).ivar = (v.par area p).ivar := rfl
    simp only [Bjt.Par.base, hbe.1, hbc.1, o1, o2, o3, o4, o5, o6, k1, k2]
    split_ifs <;> rfl
  have f1 : (v.par (n * area) p).bF = (v.par area p).bF := rfl
  have f2 : (v.par (n * area) p).bR = (v.par area p).bR := rfl
  have c1 : o'.cce = n * o.cce := by
    simp only [o, o', Bjt.Par.currents, hbe.1, hbc.1, hbc.2, hq, f2]; ring
  have c2 : o'.cpi = n * o.cpi := by
    simp only [o, o', Bjt.Par.currents, hbe.1, hbe.2, f1]; ring
  have c3 : o'.cmu = n * o.cmu := by
    simp only [o, o', Bjt.Par.currents, hbc.1, hbc.2, f2]; ring
  refine ⟨c1, c2, c3, ?_⟩
  intro vb vib i
  have hr : v.rx (n * area) ((v.par (n * area) p).base vbe vbc).qb (o'.cpi + o'.cmu)
      = v.rx area ((v.par area p).base vbe vbc).qb (o.cpi + o.cmu) / n := by
    rw [hq, c2, c3, ← mul_add, parallel v ha hn]
  have ev : ∀ A, v.eval true A p vbe vbc = if v.rb = 0 ∧ v.rbm = 0 then .absent
      else if v.rx A ((v.par A p).base vbe vbc).qb (((v.par A p).currents vbe vbc).cpi + ((v.par A p).currents vbe vbc).cmu) = 0
        then .stop
      else .cond (1 / v.rx A ((v.par A p).base vbe vbc).qb
        (((v.par A p).currents vbe vbc).cpi + ((v.par A p).currents vbe vbc).cmu)) := by
    intro A; simp [Vals.eval, Vals.gx]
  rw [ev, ev]
  by_cases hb : v.rb = 0 ∧ v.rbm = 0
  · simp [if_pos hb, Gx.current]
  rw [if_neg hb, if_neg hb]
  by_cases hx : v.rx area ((v.par area p).base vbe vbc).qb (o.cpi + o.cmu) = 0
  · rw [if_pos hx]; simp [Gx.current]
  · have h2 : v.rx (n * area) ((v.par (n * area) p).base vbe vbc).qb (o'.cpi + o'.cmu) ≠ 0 := by
      rw [hr]; exact div_ne_zero hx hn
    rw [if_neg hx, if_neg h2]
    change some _ = _ → some _ = _
    rw [hr]
    simp only [Option.some.injEq]
    rintro rfl
    change 1 / (v.rx area _ (o.cpi + o.cmu) / n) * _ = n * (1 / v.rx area _ (o.cpi + o.cmu) * _)
    field_simp

/-- a card and a bias for these: thermal voltage 1, both junctions forward by it, the corner current there -/
noncomputable def mild : Card :=
  { is := some 1, rb := some 100, rbm := some 20, irb := some ((exp 1 - 1) / 100 + (exp 1 - 1)) }
noncomputable def par1 : Bjt.Par := { vt := 1, ise := 0, isc := 0, bF := 100, bR := 1 }

example : ∃ g, mild.vals.eval true 2 par1 1 1 = .cond g ∧ 0 < g ∧ |1 / g - 30| ≤ 0.4 := by
  have he : (1:ℝ) ≤ exp 1 - 1 := by linarith [add_one_le_exp (1:ℝ)]
  have := half_way_device mild par1 (area := 2) (vbe := 1) (vbc := 1) (i := (exp 1 - 1) / 100 + (exp 1 - 1))
    rfl rfl rfl rfl rfl rfl rfl rfl rfl (by norm_num [par1]) (by norm_num [par1]) (by norm_num) (by linarith) rfl
    (by norm_num [mild, Card.vals]) (by norm_num [mild, Card.vals]) (by norm_num [mild, Card.vals])
    (by norm_num [mild, Card.vals, par1, Diode])
  obtain ⟨g, h1, h2, h3⟩ := this
  refine ⟨g, h1, h2, ?_⟩
  norm_num [mild, Card.vals] at h3 ⊢
  exact h3

example : par1.gmin = 0 ∧ (2:ℝ) ≠ 0 := ⟨rfl, by norm_num⟩

end Gnucap.BjtBase.Props
