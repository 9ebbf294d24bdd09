import Verif.Mos2More
import Mathlib.Analysis.SpecialFunctions.Trigonometric.Arctan
import Mathlib.Topology.Order.IntermediateValue

/-! # Mosfet level 2 with `vmax`: where the channel ends

With `vmax` the channel ends where carriers reach that velocity: the current there, `charge` times velocity, is the current of the channel,
`drift` times mobility over length.  The code solves this as an equation of fourth degree in the root of the surface potential.  -/

namespace Gnucap.Mos

/-! ## The law -/

/-- what the channel carries beyond what the velocity allows at its end; `w` is velocity times length over mobility -/
noncomputable def gap (u g e f w v : ℝ) : ℝ := drift u g e f v - w * charge u g e f v

theorem drift_le {u g e f a b : ℝ} (he : 0 < e) (hg : 0 ≤ g) (ha : 0 ≤ f + a) (hab : a ≤ b) (hc : 0 ≤ charge u g e f b) :
    drift u g e f a ≤ drift u g e f b := by
  unfold charge at hc
  unfold drift
  obtain ⟨a1, a2⟩ := root_cube ha
  obtain ⟨b1, b2⟩ := root_cube (show 0 ≤ f + b by linarith)
  rw [a1, b1]
  have k2 := (cubes (Real.sqrt_nonneg (f + a)) (Real.sqrt_nonneg (f + b))).2
  rw [← a2, ← b2] at k2
  have h2 := mul_le_mul_of_nonneg_left k2 hg
  generalize Real.sqrt (f + b) = y at *
  generalize Real.sqrt (f + a) = x at *
  generalize f * Real.sqrt f = F at *
  have h3 : 0 ≤ b - a := by linarith
  nlinarith [mul_nonneg hc h3, mul_nonneg he.le (mul_nonneg h3 h3)]

theorem charge_gap {u g e f a b : ℝ} (hg : 0 ≤ g) (hab : a ≤ b) : e * (b - a) ≤ charge u g e f a - charge u g e f b := by
  unfold charge
  have : Real.sqrt (f + a) ≤ Real.sqrt (f + b) := Real.sqrt_le_sqrt (by linarith)
  nlinarith [mul_le_mul_of_nonneg_left this hg]

theorem gap_up {u g e f w a b : ℝ} (he : 0 < e) (hg : 0 ≤ g) (hw : 0 < w) (ha : 0 ≤ f + a) (hab : a ≤ b) (hc : 0 ≤ charge u g e f b) :
    w * e * (b - a) ≤ gap u g e f w b - gap u g e f w a := by
  have h1 := drift_le he hg ha hab hc
  have h2 := mul_le_mul_of_nonneg_left (charge_gap (u := u) (e := e) (f := f) hg hab) hw.le
  unfold gap
  linarith

/-- **C97, velocity.**  There is one place in the channel where it ends. -/
theorem level2_end {u g e f w : ℝ} (he : 0 < e) (hg : 0 ≤ g) (hf : 0 < f) (hw : 0 < w) (hu : g * Real.sqrt f ≤ u) :
    ∃ v, (0 ≤ v ∧ v ≤ vend u g e f ∧ gap u g e f w v = 0) ∧ ∀ x, 0 ≤ f + x → x ≤ vend u g e f → gap u g e f w x = 0 → x = v := by
  have h0 := driven hg he hf hu
  have hV := vend_nonneg he hg h0 hu
  have hVc := vend_charge (g := g) he h0
  set V := vend u g e f with hVd
  have hc : ContinuousOn (gap u g e f w) (Set.Icc 0 V) := by
    unfold gap drift charge
    fun_prop
  have hz : gap u g e f w 0 ≤ 0 := by
    unfold gap drift charge
    simp only [mul_zero, add_zero, sub_self, sub_zero, zero_sub, neg_nonpos]
    exact mul_nonneg hw.le (by linarith)
  have hd : 0 ≤ gap u g e f w V := by
    have := (drift_bounds hg hf hV hVc.ge).1
    unfold gap
    rw [hVc, mul_zero, sub_zero]
    refine le_trans ?_ this
    positivity
  obtain ⟨v, ⟨v1, v2⟩, v3⟩ := intermediate_value_Icc hV hc ⟨hz, hd⟩
  refine ⟨v, ⟨v1, v2, v3⟩, fun x x1 x2 x3 => ?_⟩
  have hcc : ∀ y, y ≤ V → 0 ≤ charge u g e f y := fun y hy => by
    have := charge_gap (u := u) (e := e) (f := f) hg hy
    rw [hVc] at this
    have : 0 ≤ e * (V - y) := mul_nonneg he.le (by linarith)
    linarith
  have hwe := mul_pos hw he
  rcases le_total x v with h | h
  · have := gap_up he hg hw x1 h (hcc v v2)
    rw [v3, x3] at this
    nlinarith
  · have := gap_up he hg hw (by linarith) h (hcc x x2)
    rw [v3, x3] at this
    nlinarith

/-! ## The equation of fourth degree -/

/-- what the code solves is the law -/
theorem quart_law (p : P2) {vds vbs : ℝ} (h : p.Ok vds vbs) (vm ueff u x : ℝ) (hx : 0 ≤ x) :
    (p.quart (p.bulk vds vbs) vm ueff u).at x = -(2 / (p.eta1 + 1)) *
      gap u (p.G vds vbs) (p.eta1 + 1) (p.tphi - vbs) (vm * p.leff / ueff) (x * x - (p.tphi - vbs)) := by
  have s1 := (bulk_s p h).1
  have hf : 0 < p.tphi - vbs := by have := h.phi; have := h.bulk; linarith
  have he := h.eta
  have e1 : (p.bulk vds vbs).vbs = vbs := rfl
  unfold P2.quart Quart.at gap drift charge
  simp only [gam_eq p h, s1, e1]
  have e2 : p.tphi - vbs + (x * x - (p.tphi - vbs)) = x * x := by ring
  rw [e2, Real.sqrt_mul_self hx, show p.eta = p.eta1 + 1 from rfl]
  have e3 : Real.sqrt (p.tphi - vbs) * Real.sqrt (p.tphi - vbs) * Real.sqrt (p.tphi - vbs) = (p.tphi - vbs) * Real.sqrt (p.tphi - vbs) := by
    rw [Real.mul_self_sqrt hf.le]
  rw [e3]
  generalize (p.tphi - vbs) * Real.sqrt (p.tphi - vbs) = F
  generalize vm * p.leff / ueff = w
  generalize p.G vds vbs = g
  generalize p.tphi - vbs = f
  field_simp
  ring

/-- the equation of third degree whose root takes the other apart -/
def Quart.res (q : Quart) (y : ℝ) : ℝ := y ^ 3 - q.b * y ^ 2 + (q.a * q.c - 4 * q.d) * y - q.a ^ 2 * q.d + 4 * q.b * q.d - q.c ^ 2

theorem res_split (q : Quart) (y : ℝ) :
    q.res y = 4 * (q.a * q.a / 4 - q.b + y) * (y * y / 4 - q.d) - (q.a * y / 2 - q.c) ^ 2 := by
  unfold Quart.res; ring

theorem at_split (q : Quart) (x y : ℝ) : q.at x = (x ^ 2 + q.a / 2 * x + y / 2) ^ 2 -
    ((q.a * q.a / 4 - q.b + y) * x ^ 2 + (q.a * y / 2 - q.c) * x + (y * y / 4 - q.d)) := by
  unfold Quart.at; ring

/-- a root of a factor is tried -/
theorem pair_mem (q : Quart) (y a3 b3 s1 s2 x : ℝ) (h : x ^ 2 + (q.a / 2 + s1 * a3) * x + (y / 2 + s2 * b3) = 0) :
    x ∈ q.pair y a3 b3 s1 s2 := by
  unfold Quart.pair
  simp only
  set a4 := q.a / 2 + s1 * a3
  set b4 := y / 2 + s2 * b3
  have hd : a4 * a4 / 4 - b4 = (x + a4 / 2) ^ 2 := by nlinarith
  rw [hd, if_pos (sq_nonneg _), Real.sqrt_sq_eq_abs]
  rcases abs_choice (x + a4 / 2) with h1 | h1 <;> rw [h1] <;> simp
  · left; ring
  · right; ring

/-- every root is tried, if `y` is a root of the other -/
theorem tries_all (q : Quart) (y x : ℝ) (hy : q.res y = 0) (hA : 0 ≤ q.a * q.a / 4 - q.b + y) (hB : 0 ≤ y * y / 4 - q.d) (hx : q.at x = 0) :
    x ∈ q.tries y := by
  unfold Quart.tries
  simp only
  rw [if_neg (by push Not; exact ⟨hA, hB⟩)]
  rw [res_split] at hy
  rw [at_split q x y] at hx
  have sA := Real.sq_sqrt hA
  have sB := Real.sq_sqrt hB
  set A := q.a * q.a / 4 - q.b + y
  set B := y * y / 4 - q.d
  set a3 := Real.sqrt A
  set b3 := Real.sqrt B
  have hm : (q.a * y / 2 - q.c) ^ 2 = (2 * a3 * b3) ^ 2 := by
    rw [mul_pow, mul_pow, sA, sB]; linarith
  rw [← sA, ← sB] at hx
  rcases sq_eq_sq_iff_eq_or_eq_neg.1 hm with h | h
  · rw [h] at hx
    have hp : (x ^ 2 + (q.a / 2 + 1 * a3) * x + (y / 2 + 1 * b3)) * (x ^ 2 + (q.a / 2 + -1 * a3) * x + (y / 2 + -1 * b3)) = 0 := by
      rw [← hx]; ring
    rcases mul_eq_zero.1 hp with h1 | h1
    · simp [pair_mem q y a3 b3 1 1 x h1]
    · simp [pair_mem q y a3 b3 (-1) (-1) x h1]
  · rw [h] at hx
    have hp : (x ^ 2 + (q.a / 2 + 1 * a3) * x + (y / 2 + -1 * b3)) * (x ^ 2 + (q.a / 2 + -1 * a3) * x + (y / 2 + 1 * b3)) = 0 := by
      rw [← hx]; ring
    rcases mul_eq_zero.1 hp with h1 | h1
    · simp [pair_mem q y a3 b3 1 (-1) x h1]
    · simp [pair_mem q y a3 b3 (-1) 1 x h1]

/-- the largest root of the other leaves both roots real -/
theorem top_real (q : Quart) (y : ℝ) (hy : ∀ z, y < z → 0 < q.res z) :
    0 ≤ q.a * q.a / 4 - q.b + y ∧ 0 ≤ y * y / 4 - q.d := by
  constructor
  · by_contra h
    have := hy (q.b - q.a * q.a / 4) (by linarith)
    rw [res_split] at this
    nlinarith [sq_nonneg (q.a * (q.b - q.a * q.a / 4) / 2 - q.c)]
  · by_contra h
    have hd : 0 < q.d := by nlinarith [sq_nonneg y]
    have h1 := Real.sq_sqrt hd.le
    have h2 := Real.sqrt_pos.2 hd
    have := hy (2 * Real.sqrt q.d) (lt_of_not_ge fun hc => by nlinarith)
    rw [res_split] at this
    have e : 2 * Real.sqrt q.d * (2 * Real.sqrt q.d) / 4 - q.d = 0 := by nlinarith
    rw [e] at this
    nlinarith [sq_nonneg (q.a * (2 * Real.sqrt q.d) / 2 - q.c)]

/-! ## The equation of third degree -/

theorem rpow_third {x : ℝ} (h : 0 ≤ x) : (x ^ ((1 : ℝ) / 3)) ^ 3 = x := by
  rw [← Real.rpow_natCast, ← Real.rpow_mul h]; norm_num

theorem rpow_sixth {x : ℝ} (h : 0 ≤ x) : (x ^ ((1 : ℝ) / 6)) ^ 6 = x := by
  rw [← Real.rpow_natCast, ← Real.rpow_mul h]; norm_num

/-- by angles, three real roots: right but for the sign of `S` -/
theorem by_angle (r S : ℝ) (hP : S * S / 4 + r * r * r / 27 < 0) :
    let z := 2 * (-(r * r * r) / 27) ^ ((1 : ℝ) / 6) *
      Real.cos ((if S = 0 then -(Real.pi / 2) else Real.arctan (-2 * Real.sqrt (-(S * S / 4 + r * r * r / 27)) / S)) / 3)
    z ^ 3 + r * z = |S| ∧ 0 < z ∧ -r ≤ z ^ 2 := by
  intro z
  have hr : r < 0 := by
    by_contra h
    have : 0 ≤ r * r * r := mul_nonneg (mul_self_nonneg r) (not_lt.1 h)
    nlinarith [mul_self_nonneg S]
  have hq : 0 < -(r * r * r) / 27 := by nlinarith [mul_self_nonneg S]
  set ro := (-(r * r * r) / 27) ^ ((1 : ℝ) / 6) with hro
  have ro0 : 0 < ro := Real.rpow_pos_of_pos hq _
  have ro6 : ro ^ 6 = -(r * r * r) / 27 := rpow_sixth hq.le
  have ro2 : ro ^ 2 = -r / 3 := by
    refine (pow_left_inj₀ (by positivity) (by linarith) (show (3 : ℕ) ≠ 0 by norm_num)).1 ?_
    rw [← pow_mul, ro6]; ring
  set fi := (if S = 0 then -(Real.pi / 2) else Real.arctan (-2 * Real.sqrt (-(S * S / 4 + r * r * r / 27)) / S)) with hfi
  have hpi := Real.pi_pos
  have hb : -(Real.pi / 2) ≤ fi ∧ fi ≤ Real.pi / 2 := by
    rw [hfi]; split
    · exact ⟨le_rfl, by linarith⟩
    · exact ⟨(Real.neg_pi_div_two_lt_arctan _).le, (Real.arctan_lt_pi_div_two _).le⟩
  have hcos : Real.cos fi = |S| / (2 * ro ^ 3) := by
    rw [hfi]
    split
    · rename_i hS; rw [Real.cos_neg, Real.cos_pi_div_two, hS]; simp
    · rename_i hS
      rw [Real.cos_arctan]
      have e : 1 + (-2 * Real.sqrt (-(S * S / 4 + r * r * r / 27)) / S) ^ 2 = (2 * ro ^ 3 / |S|) ^ 2 := by
        have hs := Real.sq_sqrt (show 0 ≤ -(S * S / 4 + r * r * r / 27) by linarith)
        rw [div_pow, div_pow, sq_abs, mul_pow, mul_pow, hs, ← pow_mul, ro6]
        field_simp
        ring
      have hS' : 0 < |S| := abs_pos.2 hS
      rw [e, Real.sqrt_sq (by positivity)]
      field_simp
  have h3 : 4 * Real.cos (fi / 3) ^ 3 - 3 * Real.cos (fi / 3) = |S| / (2 * ro ^ 3) := by
    rw [← hcos, ← Real.cos_three_mul]; congr 1; ring
  have hc : Real.sqrt 3 / 2 ≤ Real.cos (fi / 3) := by
    rw [← Real.cos_pi_div_six, ← Real.cos_abs (fi / 3)]
    refine Real.cos_le_cos_of_nonneg_of_le_pi (abs_nonneg _) (by linarith) (abs_le.2 ⟨by linarith, by linarith⟩)
  have h30 := Real.sqrt_pos.2 (show (0 : ℝ) < 3 by norm_num)
  have h3s := Real.sq_sqrt (show (0 : ℝ) ≤ 3 by norm_num)
  set c := Real.cos (fi / 3)
  have c2 : 3 / 4 ≤ c ^ 2 := by nlinarith
  have hz : z = 2 * ro * c := rfl
  have er : r = -3 * ro ^ 2 := by linarith
  refine ⟨?_, ?_, ?_⟩
  · have : |S| = 2 * ro ^ 3 * (4 * c ^ 3 - 3 * c) := by rw [h3]; field_simp
    rw [this, hz, er]; ring
  · rw [hz]; have : 0 < c := by linarith
    positivity
  · rw [hz, er]; nlinarith [mul_nonneg (sq_nonneg ro) (sub_nonneg.2 c2)]

/-- by cube roots, one real root: right if both cubes are positive -/
theorem by_roots (r S : ℝ) (hP : 0 ≤ S * S / 4 + r * r * r / 27) (hS : S ≤ 0) (hr : r ≤ 0) :
    let z := |(-S / 2 + Real.sqrt (S * S / 4 + r * r * r / 27))| ^ ((1 : ℝ) / 3) + |(-S / 2 - Real.sqrt (S * S / 4 + r * r * r / 27))| ^ ((1 : ℝ) / 3)
    z ^ 3 + r * z = -S ∧ 0 ≤ z ∧ -r ≤ z ^ 2 := by
  intro z
  have hr3 : r * r * r ≤ 0 := mul_nonpos_of_nonneg_of_nonpos (mul_self_nonneg r) hr
  set P := S * S / 4 + r * r * r / 27 with hPd
  have hsP := Real.sq_sqrt hP
  have hle : Real.sqrt P ≤ -S / 2 := Real.sqrt_le_iff.2 ⟨by linarith, by rw [hPd]; nlinarith⟩
  have h0 := Real.sqrt_nonneg P
  have p1 : 0 ≤ -S / 2 + Real.sqrt P := by linarith
  have p2 : 0 ≤ -S / 2 - Real.sqrt P := by linarith
  have hz : z = (-S / 2 + Real.sqrt P) ^ ((1 : ℝ) / 3) + (-S / 2 - Real.sqrt P) ^ ((1 : ℝ) / 3) := by
    show |_| ^ _ + |_| ^ _ = _
    rw [abs_of_nonneg p1, abs_of_nonneg p2]
  have u3 := rpow_third p1
  have v3 := rpow_third p2
  have u0 := Real.rpow_nonneg p1 ((1 : ℝ) / 3)
  have v0 := Real.rpow_nonneg p2 ((1 : ℝ) / 3)
  generalize (-S / 2 + Real.sqrt P) ^ ((1 : ℝ) / 3) = u at *
  generalize (-S / 2 - Real.sqrt P) ^ ((1 : ℝ) / 3) = v at *
  have huv : u * v = -r / 3 := by
    refine (pow_left_inj₀ (by positivity) (by linarith) (show (3 : ℕ) ≠ 0 by norm_num)).1 ?_
    rw [mul_pow, u3, v3]
    nlinarith
  refine ⟨?_, by rw [hz]; positivity, ?_⟩
  · rw [hz]
    have : (u + v) ^ 3 = u ^ 3 + v ^ 3 + 3 * (u * v) * (u + v) := by ring
    rw [this, u3, v3, huv]; ring
  · rw [hz]; nlinarith [sq_nonneg (u - v)]

/-- `S` and `r` of the code (d_mos2.model:360-366) -/
noncomputable def Quart.S (q : Quart) : ℝ := -(2 * q.b ^ 3) / 27 + q.b * (q.a * q.c - 4 * q.d) / 3 - q.d * (q.a ^ 2 - 4 * q.b) - q.c ^ 2
noncomputable def Quart.r (q : Quart) : ℝ := -(q.b ^ 2) / 3 + (q.a * q.c - 4 * q.d)

theorem res_at (q : Quart) (z : ℝ) : q.res (z + q.b / 3) = z ^ 3 + q.r * z + q.S := by
  unfold Quart.res Quart.r Quart.S; ring

/-- `y3` by the two ways -/
theorem y3_eq (q : Quart) : q.y3 = (if q.S * q.S / 4 + q.r * q.r * q.r / 27 < 0 then
      2 * (-(q.r * q.r * q.r) / 27) ^ ((1 : ℝ) / 6) * Real.cos ((if q.S = 0 then -(Real.pi / 2) else
        Real.arctan (-2 * Real.sqrt (-(q.S * q.S / 4 + q.r * q.r * q.r / 27)) / q.S)) / 3)
    else |(-q.S / 2 + Real.sqrt (q.S * q.S / 4 + q.r * q.r * q.r / 27))| ^ ((1 : ℝ) / 3) +
      |(-q.S / 2 - Real.sqrt (q.S * q.S / 4 + q.r * q.r * q.r / 27))| ^ ((1 : ℝ) / 3)) + q.b / 3 := by
  have e1 : -(-q.b) * -q.b / 3 + (q.a * q.c - 4 * q.d) = q.r := by unfold Quart.r; ring
  have e2 : 2 * -q.b * -q.b * -q.b / 27 - -q.b * (q.a * q.c - 4 * q.d) / 3 + (-q.d * (q.a * q.a - 4 * q.b) - q.c * q.c) = q.S := by
    unfold Quart.S; ring
  unfold Quart.y3
  simp only [e1, e2]
  split <;> ring

/-- the largest root of a cubic -/
theorem cubic_top {r T z : ℝ} (h : z ^ 3 + r * z = T) (h0 : 0 ≤ z) (hz : -r ≤ z ^ 2) (x : ℝ) (hx : z < x) : T < x ^ 3 + r * x := by
  have : x ^ 3 + r * x - T = (x - z) * (x ^ 2 + x * z + z ^ 2 + r) := by rw [← h]; ring
  have h1 : 0 < (x - z) * (x ^ 2 + x * z + z ^ 2 + r) := mul_pos (by linarith) (by nlinarith [mul_nonneg h0 (by linarith : 0 ≤ x)])
  linarith

/-- `y3` is the largest root, if neither `S` nor `r` is positive -/
theorem y3_top (q : Quart) (hS : q.S ≤ 0) (hr : q.r ≤ 0) : q.res q.y3 = 0 ∧ ∀ y, q.y3 < y → 0 < q.res y := by
  have key : ∃ z, q.y3 = z + q.b / 3 ∧ z ^ 3 + q.r * z = -q.S ∧ 0 ≤ z ∧ -q.r ≤ z ^ 2 := by
    rw [y3_eq]
    split
    · rename_i hP
      obtain ⟨h1, h2, h3⟩ := by_angle q.r q.S hP
      exact ⟨_, rfl, by rw [h1, abs_of_nonpos hS], h2.le, h3⟩
    · rename_i hP
      obtain ⟨h1, h2, h3⟩ := by_roots q.r q.S (not_lt.1 hP) hS hr
      exact ⟨_, rfl, h1, h2, h3⟩
  obtain ⟨z, e, h1, h2, h3⟩ := key
  rw [e]
  refine ⟨by rw [res_at]; linarith, fun y hy => ?_⟩
  have := cubic_top h1 h2 h3 (y - q.b / 3) (by linarith)
  have e2 : q.res y = q.res (y - q.b / 3 + q.b / 3) := by congr 1; ring
  rw [e2, res_at]; linarith

/-! ## The choice -/

theorem choose_fold (q : Quart) (l : List ℝ) (best : Option ℝ) (hb : ∀ x, best = some x → 0 < x ∧ |q.at x| ≤ 1 / 1000000) :
    (∀ x, l.foldl q.choose best = some x → 0 < x ∧ |q.at x| ≤ 1 / 1000000) ∧
    (∀ y, best = some y → ∃ x, l.foldl q.choose best = some x ∧ x ≤ y) ∧
    ∀ y ∈ l, 0 < y → |q.at y| ≤ 1 / 1000000 → ∃ x, l.foldl q.choose best = some x ∧ x ≤ y := by
  induction l generalizing best with
  | nil => exact ⟨hb, fun y hy => ⟨y, hy, le_rfl⟩, by simp⟩
  | cons a l ih =>
    simp only [List.foldl_cons]
    have hc : (∀ x, q.choose best a = some x → 0 < x ∧ |q.at x| ≤ 1 / 1000000) ∧ (∀ y, best = some y → ∃ x, q.choose best a = some x ∧ x ≤ y) ∧
        (0 < a → |q.at a| ≤ 1 / 1000000 → ∃ x, q.choose best a = some x ∧ x ≤ a) := by
      unfold Quart.choose
      by_cases ha : 0 < a ∧ |q.at a| ≤ 1 / 1000000
      · simp only [if_pos ha]
        cases best with
        | none => exact ⟨fun x hx => by simp at hx; subst hx; exact ha, by simp, fun _ _ => ⟨a, rfl, le_rfl⟩⟩
        | some y =>
          have := hb y rfl
          by_cases hy : a ≤ y
          · simp only [if_pos hy]
            exact ⟨fun x hx => by simp at hx; subst hx; exact ha, fun z hz => by simp at hz; subst hz; exact ⟨a, rfl, hy⟩, fun _ _ => ⟨a, rfl, le_rfl⟩⟩
          · simp only [if_neg hy]
            exact ⟨fun x hx => by simp at hx; subst hx; exact this, fun z hz => by simp at hz; subst hz; exact ⟨y, rfl, le_rfl⟩,
              fun _ _ => ⟨y, rfl, (not_le.1 hy).le⟩⟩
      · simp only [if_neg ha]
        exact ⟨hb, fun y hy => ⟨y, hy, le_rfl⟩, fun h1 h2 => absurd ⟨h1, h2⟩ ha⟩
    obtain ⟨i1, i2, i3⟩ := ih (q.choose best a) hc.1
    refine ⟨i1, fun y hy => ?_, fun y hy h1 h2 => ?_⟩
    · obtain ⟨x, hx, hxy⟩ := hc.2.1 y hy
      obtain ⟨z, hz, hzx⟩ := i2 x hx
      exact ⟨z, hz, hzx.trans hxy⟩
    · rcases List.mem_cons.1 hy with hy | hy
      · subst hy
        obtain ⟨x, hx, hxy⟩ := hc.2.2 h1 h2
        obtain ⟨z, hz, hzx⟩ := i2 x hx
        exact ⟨z, hz, hzx.trans hxy⟩
      · exact i3 y hy h1 h2

/-- a root is found, and what is found is near one and not beyond the least -/
theorem pick_least (q : Quart) (hS : q.S ≤ 0) (hr : q.r ≤ 0) (x : ℝ) (hx : 0 < x) (hq : q.at x = 0) :
    ∃ y, q.pick = some y ∧ 0 < y ∧ |q.at y| ≤ 1 / 1000000 ∧ y ≤ x := by
  obtain ⟨t1, t2⟩ := y3_top q hS hr
  obtain ⟨hA, hB⟩ := top_real q q.y3 t2
  have hm := tries_all q q.y3 x t1 hA hB hq
  obtain ⟨c1, _, c3⟩ := choose_fold q (q.tries q.y3) none (by simp)
  obtain ⟨y, hy, hyx⟩ := c3 x hm hx (by rw [hq, abs_zero]; norm_num)
  exact ⟨y, hy, (c1 y hy).1, (c1 y hy).2, hyx⟩


/-! ## Saturation with `vmax` -/

/-- **C97, saturation with `vmax`.**  The saturation voltage is where carriers reach the velocity, but for the tolerance of the equation,
if the signs in it are those the code expects. -/
theorem level2_vmax_end_partial (p : P2) {vds vbs : ℝ} (h : p.Ok vds vbs) (hG : 0 ≤ p.G vds vbs) {vm : ℝ} (hv : p.vmax = some vm) (ueff u : ℝ)
    (hw : 0 < vm * p.leff / ueff) (hu : p.Q vds vbs ≤ u) (hS : (p.quart (p.bulk vds vbs) vm ueff u).S ≤ 0)
    (hr : (p.quart (p.bulk vds vbs) vm ueff u).r ≤ 0) :
    let w := vm * p.leff / ueff
    ∃ v, (0 ≤ v ∧ v ≤ vend u (p.G vds vbs) (p.eta1 + 1) (p.tphi - vbs) ∧ gap u (p.G vds vbs) (p.eta1 + 1) (p.tphi - vbs) w v = 0) ∧
      |(p.vsat (p.bulk vds vbs) ueff u).v - v| ≤ 1 / (2000000 * w) ∧ 0 ≤ (p.vsat (p.bulk vds vbs) ueff u).v ∧
      (p.vsat (p.bulk vds vbs) ueff u).baum = true := by
  intro w
  have hf : 0 < p.tphi - vbs := by have := h.phi; have := h.bulk; linarith
  have he := h.eta
  obtain ⟨v, ⟨v0, v1, v2⟩, _⟩ := level2_end (w := w) he hG hf hw hu
  refine ⟨v, ⟨v0, v1, v2⟩, ?_⟩
  set q := p.quart (p.bulk vds vbs) vm ueff u with hq
  have hfv : 0 < p.tphi - vbs + v := by linarith
  have hx := Real.sqrt_pos.2 hfv
  have hxx := Real.mul_self_sqrt hfv.le
  have hroot : q.at (Real.sqrt (p.tphi - vbs + v)) = 0 := by
    rw [hq, quart_law p h _ _ _ _ hx.le, hxx, show p.tphi - vbs + v - (p.tphi - vbs) = v by ring, v2, mul_zero]
  obtain ⟨y, y1, y2, y3, y4⟩ := pick_least q hS hr _ hx hroot
  rw [hq, quart_law p h _ _ _ _ y2.le] at y3
  have hyv : y * y - (p.tphi - vbs) ≤ v := by nlinarith
  have hcv : 0 ≤ charge u (p.G vds vbs) (p.eta1 + 1) (p.tphi - vbs) v := by
    have := charge_gap (u := u) (e := p.eta1 + 1) (f := p.tphi - vbs) hG v1
    rw [vend_charge he (driven hG he hf hu)] at this
    have : 0 ≤ (p.eta1 + 1) * (vend u (p.G vds vbs) (p.eta1 + 1) (p.tphi - vbs) - v) := mul_nonneg he.le (by linarith)
    linarith
  have hg := gap_up he hG hw (show 0 ≤ p.tphi - vbs + (y * y - (p.tphi - vbs)) by nlinarith) hyv hcv
  rw [v2] at hg
  set g := gap u (p.G vds vbs) (p.eta1 + 1) (p.tphi - vbs) (vm * p.leff / ueff) (y * y - (p.tphi - vbs)) with hgd
  have hclose : v - (y * y - (p.tphi - vbs)) ≤ 1 / (2000000 * w) := by
    have h1 := (abs_le.1 y3).2
    have h2 : -(2 / (p.eta1 + 1)) * g = 2 * (0 - g) / (p.eta1 + 1) := by ring
    rw [h2, div_le_iff₀ he] at h1
    have h3 : (p.eta1 + 1) * (w * (v - (y * y - (p.tphi - vbs)))) ≤ (p.eta1 + 1) * (1 / 2000000) := by
      calc (p.eta1 + 1) * (w * (v - (y * y - (p.tphi - vbs)))) = w * (p.eta1 + 1) * (v - (y * y - (p.tphi - vbs))) := by ring
        _ ≤ 0 - g := hg
        _ ≤ _ := by linarith
    have h4 := le_of_mul_le_mul_left h3 he
    rw [le_div_iff₀ (by positivity)]
    nlinarith
  have e1 : (p.bulk vds vbs).vbs = vbs := rfl
  unfold P2.vsat
  simp only [hv, ← hq, y1, e1]
  have hpos : 0 ≤ 1 / (2000000 * w) := by positivity
  split
  · rename_i hneg
    simp only
    refine ⟨?_, le_rfl, trivial⟩
    rw [zero_sub, abs_neg, abs_of_nonneg v0]; linarith
  · rename_i hneg
    refine ⟨?_, not_lt.1 hneg, rfl⟩
    rw [abs_le]; constructor <;> linarith

/-- what is left of `vmax` without a root: nothing -/
theorem vmax_dropped (p : P2) {vm : ℝ} (hv : p.vmax = some vm) (k : Bulk2) (vgsx vgst : ℝ)
    (h : (p.quart k vm (p.uo * (p.mob vgst (p.dvon k)).f) (vgsx - p.vbin k)).pick = none) :
    p.on k vgsx vgst = ({ p with vmax := none } : P2).on k vgsx vgst := by
  have e0 : ∀ a b, ({ p with vmax := none } : P2).mob a b = p.mob a b := fun _ _ => rfl
  have e1 : ({ p with vmax := none } : P2).dvon k = p.dvon k := rfl
  have e2 : ({ p with vmax := none } : P2).vbin k = p.vbin k := rfl
  have hb : ∀ c, (p.grove k c).baum = false := by
    intro c; unfold P2.grove; simp only; split
    · split <;> rfl
    · rfl
  have e3 : ∀ c, ({ p with vmax := none } : P2).grove k c = p.grove k c := fun _ => rfl
  set ueff := p.uo * (p.mob vgst (p.dvon k)).f with hu
  set vc := vgsx - p.vbin k with hc
  have hs1 : p.vsat k ueff vc = ({ p with vmax := none } : P2).vsat k ueff vc := by
    unfold P2.vsat; simp only [hv, h, e3]
  have hb1 : (p.vsat k ueff vc).baum = false := by
    unfold P2.vsat; simp only [hv, h]; split <;> simp [hb]
  have hs2 : p.slopes k ueff vc (p.vsat k ueff vc) = ({ p with vmax := none } : P2).slopes k ueff vc (({ p with vmax := none } : P2).vsat k ueff vc) := by
    rw [← hs1]
    generalize p.vsat k ueff vc = s at *
    unfold P2.slopes
    simp only [hv, hb1]
  have hb2 : (p.slopes k ueff vc (p.vsat k ueff vc)).baum = false := by
    unfold P2.slopes; simp only [hv, hb1]
  have hl : ∀ d s, s.baum = false → p.length ueff d s = ({ p with vmax := none } : P2).length ueff d s := by
    intro d s hs
    have : p.shorten ueff d s = ({ p with vmax := none } : P2).shorten ueff d s := by
      unfold P2.shorten; simp only [hv, hs]
    unfold P2.length
    rw [this]
  unfold P2.on
  simp only [e0, e1, e2, ← hu, ← hc]
  rw [← hs2, hl _ _ hb2]
  rfl

theorem pair_root (q : Quart) (y a3 b3 s1 s2 x : ℝ) (h : x ∈ q.pair y a3 b3 s1 s2) :
    x ^ 2 + (q.a / 2 + s1 * a3) * x + (y / 2 + s2 * b3) = 0 := by
  unfold Quart.pair at h
  simp only at h
  split at h
  · rename_i hd
    have hs := Real.sq_sqrt hd
    simp only [List.mem_cons, List.not_mem_nil, or_false] at h
    rcases h with h | h <;> rw [h] <;> nlinarith
  · simp at h

/-- without body effect, when velocity matters little, the angle is taken on the wrong side and the root is missed -/
theorem pick_missed (q : Quart) {M : ℝ} (ha : q.a = 0) (hc : q.c = 0) (hb : q.b = -2 * M) (hM : 0 < M) (hd : 0 < q.d) (h9 : 9 * q.d < M ^ 2)
    (ht : 1 / 1000000 < 2 * Real.sqrt (M ^ 2 / 9 - q.d) * (M / 3 - Real.sqrt (M ^ 2 / 9 - q.d))) : q.pick = none := by
  have eS : q.S = 16 * M / 27 * (M ^ 2 - 9 * q.d) := by unfold Quart.S; rw [ha, hb, hc]; ring
  have er : q.r = -(4 / 3) * (M ^ 2 + 3 * q.d) := by unfold Quart.r; rw [ha, hb, hc]; ring
  have hS : 0 < q.S := by rw [eS]; exact mul_pos (by positivity) (by linarith)
  have hP : q.S * q.S / 4 + q.r * q.r * q.r / 27 < 0 := by
    have : q.S * q.S / 4 + q.r * q.r * q.r / 27 = -(64 / 27 * q.d * (M ^ 2 - q.d) ^ 2) := by rw [eS, er]; ring
    rw [this]
    have : 0 < M ^ 2 - q.d := by linarith
    have : 0 < 64 / 27 * q.d * (M ^ 2 - q.d) ^ 2 := by positivity
    linarith
  obtain ⟨z1, z2, z3⟩ := by_angle q.r q.S hP
  have hy := y3_eq q
  rw [if_pos hP] at hy
  generalize 2 * (-(q.r * q.r * q.r) / 27) ^ ((1 : ℝ) / 6) * Real.cos ((if q.S = 0 then -(Real.pi / 2) else
        Real.arctan (-2 * Real.sqrt (-(q.S * q.S / 4 + q.r * q.r * q.r / 27)) / q.S)) / 3) = z at *
  rw [abs_of_pos hS] at z1
  have w1 : (4 * M / 3) ^ 3 + q.r * (4 * M / 3) = q.S := by rw [er, eS]; ring
  have w3 : -q.r ≤ (4 * M / 3) ^ 2 := by rw [er]; nlinarith
  have hz : z = 4 * M / 3 := by
    rcases lt_trichotomy z (4 * M / 3) with h | h | h
    · have := cubic_top z1 z2.le z3 _ h; linarith
    · exact h
    · have := cubic_top w1 (by positivity) w3 _ h; linarith
  have hy3 : q.y3 = 2 * M / 3 := by rw [hy, hz, hb]; ring
  have hB : 0 ≤ M ^ 2 / 9 - q.d := by linarith
  have hA : 0 ≤ 8 * M / 3 := by positivity
  set b3 := Real.sqrt (M ^ 2 / 9 - q.d) with hb3
  set a3 := Real.sqrt (8 * M / 3) with ha3
  have sB : b3 ^ 2 = M ^ 2 / 9 - q.d := Real.sq_sqrt hB
  have sA : a3 ^ 2 = 8 * M / 3 := Real.sq_sqrt hA
  have b0 : 0 ≤ b3 := Real.sqrt_nonneg _
  have a0 : 0 < a3 := Real.sqrt_pos.2 (by positivity)
  have hbM : b3 < M / 3 := by rw [hb3]; exact (Real.sqrt_lt' (by positivity)).2 (by nlinarith)
  have hbad : ∀ x ∈ q.tries q.y3, 0 < x → 1 / 1000000 < |q.at x| := by
    intro x hx x0
    unfold Quart.tries at hx
    simp only at hx
    rw [hy3, ha, hb, show (0 : ℝ) * 0 / 4 - -2 * M + 2 * M / 3 = 8 * M / 3 by ring, show 2 * M / 3 * (2 * M / 3) / 4 - q.d = M ^ 2 / 9 - q.d by ring,
      if_neg (by push Not; exact ⟨hA, hB⟩)] at hx
    have key : ∀ s1 s2 : ℝ, (s1 = 1 ∨ s1 = -1) → (s2 = 1 ∨ s2 = -1) → x ∈ q.pair (2 * M / 3) a3 b3 s1 s2 → 1 / 1000000 < |q.at x| := by
      intro s1 s2 h1 h2 hm
      have e := pair_root q _ _ _ _ _ _ hm
      rw [ha] at e
      have hval : q.at x = 2 * (s1 * s2) * a3 * b3 * x := by
        rw [at_split q x (2 * M / 3), ha, hb, hc]
        have e2 : x ^ 2 + 0 / 2 * x + 2 * M / 3 / 2 = -(s1 * a3 * x + s2 * b3) := by linarith
        have q1 : s1 ^ 2 = 1 := by rcases h1 with h | h <;> rw [h] <;> norm_num
        have q2 : s2 ^ 2 = 1 := by rcases h2 with h | h <;> rw [h] <;> norm_num
        rw [e2, show (0 : ℝ) * 0 / 4 - -2 * M + 2 * M / 3 = a3 ^ 2 by rw [sA]; ring,
          show 2 * M / 3 * (2 * M / 3) / 4 - q.d = b3 ^ 2 by rw [sB]; ring]
        linear_combination (a3 ^ 2 * x ^ 2) * q1 + b3 ^ 2 * q2
      have hab : |q.at x| = 2 * a3 * b3 * x := by
        have : |s1 * s2| = 1 := by rcases h1 with h | h <;> rcases h2 with h' | h' <;> rw [h, h'] <;> norm_num
        rw [hval, abs_mul, abs_mul, abs_mul, abs_mul, this, abs_of_pos a0, abs_of_nonneg b0, abs_of_pos x0]; norm_num
      rw [hab]
      have hlow : M / 3 - b3 ≤ a3 * x := by
        have hs2 : -b3 ≤ s2 * b3 := by rcases h2 with h | h <;> rw [h] <;> linarith
        rcases h1 with h | h
        · rw [h] at e; nlinarith [mul_pos a0 x0, sq_nonneg x]
        · rw [h] at e; nlinarith [mul_pos a0 x0, sq_nonneg x]
      calc 1 / 1000000 < 2 * b3 * (M / 3 - b3) := ht
        _ ≤ 2 * b3 * (a3 * x) := mul_le_mul_of_nonneg_left hlow (by positivity)
        _ = 2 * a3 * b3 * x := by ring
    simp only [List.mem_append] at hx
    rcases hx with ((hx | hx) | hx) | hx
    · exact key 1 1 (Or.inl rfl) (Or.inl rfl) hx
    · exact key (-1) 1 (Or.inr rfl) (Or.inl rfl) hx
    · exact key 1 (-1) (Or.inl rfl) (Or.inr rfl) hx
    · exact key (-1) (-1) (Or.inr rfl) (Or.inr rfl) hx
  unfold Quart.pick
  generalize q.tries q.y3 = l at *
  induction l with
  | nil => rfl
  | cons a l ih =>
    have : q.choose none a = none := by
      unfold Quart.choose
      rw [if_neg]
      rintro ⟨h1, h2⟩
      have := hbad a (by simp) h1
      linarith
    rw [List.foldl_cons, this]
    exact ih fun x hx => hbad x (by simp [hx])

theorem out_congr (p q : P2) (hs : p.sub = false) (hs' : q.sub = false) (vgs vds vbs : ℝ) (hb : q.bulk vds vbs = p.bulk vds vbs)
    (hv : q.von (p.bulk vds vbs) = p.von (p.bulk vds vbs))
    (ho : p.on (p.bulk vds vbs) vgs (vgs - p.von (p.bulk vds vbs)) = q.on (p.bulk vds vbs) vgs (vgs - p.von (p.bulk vds vbs))) :
    p.out vgs vds vbs = q.out vgs vds vbs := by
  unfold P2.out
  simp only [hb, hv, hs, hs', ho, Bool.false_eq_true, if_false]

/-- **C97, `vmax` without effect.**  A device without body effect: where the velocity is reached late, the code misses the root, and the device is
the one without `vmax`. -/
theorem level2_vmax_ignored (p : P2) {vm : ℝ} (hv : p.vmax = some vm) (hs : p.sub = false) (hx : p.uexp = none) (hg : p.gamma = 0)
    (vgs vds vbs : ℝ) (h : p.Ok vds vbs) (a w f : ℝ) (hw : w = vm * p.leff / p.uo) (hf : f = p.tphi - vbs)
    (ha : a = (vgs - p.T vbs) / (p.eta1 + 1) + f) (hM : 0 < a + w) (hd : 0 < 2 * a * (f + w) - f ^ 2)
    (h9 : 9 * (2 * a * (f + w) - f ^ 2) < (a + w) ^ 2)
    (ht : 1 / 1000000 < 2 * Real.sqrt ((a + w) ^ 2 / 9 - (2 * a * (f + w) - f ^ 2)) *
      ((a + w) / 3 - Real.sqrt ((a + w) ^ 2 / 9 - (2 * a * (f + w) - f ^ 2)))) :
    p.out vgs vds vbs = ({ p with vmax := none } : P2).out vgs vds vbs := by
  have hG : p.G vds vbs = 0 := by unfold P2.G; split <;> simp [hg]
  have hm : p.mob (vgs - p.von (p.bulk vds vbs)) (p.dvon (p.bulk vds vbs)) = ⟨1, 0, 0⟩ := by unfold P2.mob; rw [hx]
  have hk : (p.bulk vds vbs).vbs = vbs := rfl
  have hvb : p.vbin (p.bulk vds vbs) = p.T vbs := rfl
  have hq : p.quart (p.bulk vds vbs) vm (p.uo * 1) (vgs - p.vbin (p.bulk vds vbs)) = ⟨0, -2 * (a + w), 0, 2 * a * (f + w) - f ^ 2⟩ := by
    unfold P2.quart
    rw [gam_eq p h, hG, hk, hvb, mul_one, show p.eta = p.eta1 + 1 from rfl, ← hf]
    simp only [← ha, ← hw]
    rw [Quart.mk.injEq]
    refine ⟨by ring, by ring, by ring, by ring⟩
  have hp : (p.quart (p.bulk vds vbs) vm (p.uo * (p.mob (vgs - p.von (p.bulk vds vbs)) (p.dvon (p.bulk vds vbs))).f)
      (vgs - p.vbin (p.bulk vds vbs))).pick = none := by
    rw [hm, hq]
    exact pick_missed ⟨0, -2 * (a + w), 0, 2 * a * (f + w) - f ^ 2⟩ (M := a + w) rfl rfl rfl hM hd h9 ht
  have hd' := vmax_dropped p hv (p.bulk vds vbs) vgs (vgs - p.von (p.bulk vds vbs)) hp
  obtain ⟨q, hq'⟩ : ∃ q : P2, q = { p with vmax := none } := ⟨_, rfl⟩
  rw [← hq'] at hd' ⊢
  have e0 : q.bulk vds vbs = p.bulk vds vbs := by rw [hq']; rfl
  have e1 : q.von (p.bulk vds vbs) = p.von (p.bulk vds vbs) := by rw [hq']; rfl
  have e2 : q.sub = false := by rw [hq']; exact hs
  exact out_congr p q hs e2 vgs vds vbs e0 e1 hd'

theorem bulk_long (p : P2) (hs : p.short = false) (vds vbs : ℝ) :
    p.bulk vds vbs = ⟨vbs, vds, p.arg vbs, p.arg (vbs - vds), ⟨p.gamma, 0, 0, 0⟩⟩ := by
  unfold P2.bulk P2.gam; simp [hs]

theorem slopes_v (p : P2) (k : Bulk2) (ueff vc : ℝ) (s : Sat2) : (p.slopes k ueff vc s).v = s.v ∧ (p.slopes k ueff vc s).baum = s.baum := by
  unfold P2.slopes; split <;> exact ⟨rfl, rfl⟩

theorem bsarg_back (p : P2) (k : Bulk2) (v : ℝ) (h : k.vbs ≤ 0) (hv : 0 ≤ v) : (p.bsarg k v).1 = Real.sqrt (p.tphi - k.vbs + v) := by
  unfold P2.bsarg
  simp only
  rw [if_pos (by linarith), show p.tphi - (k.vbs - v) = p.tphi - k.vbs + v by ring]

/-- **C97, current with `vmax`.**  Above threshold and with `lambda`, the current is that of the law up to where carriers reach the velocity, but
for the tolerance of the equation. -/
theorem level2_vmax_current_partial (p : P2) {vm l : ℝ} (hv : p.vmax = some vm) (hl : p.lambda = some l) (vgs vds vbs : ℝ) (h : p.Ok vds vbs)
    (hG : 0 ≤ p.G vds vbs) (hn : p.sub = true → 0 ≤ p.vt * p.N vds vbs) (ha : 0 < p.over vgs vds vbs) (w : ℝ)
    (hw : w = vm * p.leff / (p.uo * p.move (p.over vgs vds vbs))) (hw0 : 0 < w)
    (hS : (p.quart (p.bulk vds vbs) vm (p.uo * p.move (p.over vgs vds vbs)) (vgs - p.T vbs)).S ≤ 0)
    (hr : (p.quart (p.bulk vds vbs) vm (p.uo * p.move (p.over vgs vds vbs)) (vgs - p.T vbs)).r ≤ 0) :
    ∃ v v', (0 ≤ v ∧ v ≤ vend (vgs - p.T vbs) (p.G vds vbs) (p.eta1 + 1) (p.tphi - vbs) ∧
        gap (vgs - p.T vbs) (p.G vds vbs) (p.eta1 + 1) (p.tphi - vbs) w v = 0) ∧ 0 ≤ v' ∧ |v' - v| ≤ 1 / (2000000 * w) ∧
      (p.out vgs vds vbs).ids = p.beta * p.move (p.over vgs vds vbs) *
        drift (vgs - p.T vbs) (p.G vds vbs) (p.eta1 + 1) (p.tphi - vbs) (min vds v') / pinch (p.xwb / p.leff) (1 - l * vds) := by
  have hvon := von_eq p h
  have hov : vgs - p.von (p.bulk vds vbs) = p.over vgs vds vbs := by rw [hvon]; unfold P2.over; ring
  have hnl : ¬ vgs < p.von (p.bulk vds vbs) := by linarith
  have hq : p.Q vds vbs ≤ vgs - p.T vbs := by
    unfold P2.over at ha
    by_cases hs : p.sub = true
    · rw [if_pos hs] at ha; have := hn hs; linarith
    · rw [if_neg hs] at ha; linarith
  have hout : (p.out vgs vds vbs).ids = (p.on (p.bulk vds vbs) vgs (p.over vgs vds vbs)).ids := by
    unfold P2.out
    simp only [if_neg hnl, hov]
    split <;> rfl
  have hm : (p.mob (p.over vgs vds vbs) (p.dvon (p.bulk vds vbs))).f = p.move (p.over vgs vds vbs) := by
    unfold P2.mob P2.move
    cases p.uexp with
    | none => rfl
    | some e => simp only; split <;> rfl
  set m := p.move (p.over vgs vds vbs)
  set u := vgs - p.T vbs with hu
  obtain ⟨v, hvv, v2, v3, v4⟩ := level2_vmax_end_partial p h hG hv (p.uo * m) u (by rw [← hw]; exact hw0) hq hS hr
  rw [← hw] at hvv v2
  refine ⟨v, (p.vsat (p.bulk vds vbs) (p.uo * m) u).v, hvv, v3, v2, ?_⟩
  set k := p.bulk vds vbs with hk
  set V := (p.vsat k (p.uo * m) u).v with hV
  have e0 : vgs - p.vbin k = u := rfl
  have e2 : k.vds = vds := rfl
  have e3 : k.vbs = vbs := rfl
  have s1 : k.s.r = Real.sqrt (p.tphi - vbs) := (bulk_s p h).1
  have s4 : k.b.r = Real.sqrt (p.tphi - vbs + vds) := (bulk_s p h).2.2.2
  have hmg : k.m.g = p.G vds vbs := gam_eq p h
  have hf : 0 < p.tphi - vbs := by have := h.phi; have := h.bulk; linarith
  have hss : ∀ y : ℝ, 0 ≤ y → Real.sqrt y * Real.sqrt y * Real.sqrt y = y * Real.sqrt y := fun y hy => by rw [Real.mul_self_sqrt hy]
  have hlen : ∀ s : Sat2, (p.length (p.uo * m) vds s).f = pinch (p.xwb / p.leff) (1 - l * vds) := by
    intro s
    have hx := h.xwb
    have hle := h.len
    unfold P2.length pinch
    simp only [if_pos h.drain, hl]
    split
    · rename_i hc
      simp only
      have h3 : 2 - (1 - l * vds) * p.leff / p.xwb ≠ 0 := by
        have : (1 - l * vds) * p.leff < p.xwb := (lt_div_iff₀ hle).1 hc
        have : (1 - l * vds) * p.leff / p.xwb < 1 := (div_lt_one hx).2 this
        linarith
      have h4 : 2 * (p.xwb / p.leff) - (1 - l * vds) ≠ 0 := by
        have := div_pos hx hle
        linarith
      field_simp
    · rfl
  rw [hout]
  unfold P2.on
  simp only [e0, hm, e2, hlen, (slopes_v p k (p.uo * m) u _).1, ← hV, hmg, s1, s4]
  rw [bsarg_back p k V h.bulk v3, e3]
  unfold drift P2.eta
  by_cases hlt : V < vds
  · simp only [hlt, decide_true, if_true, min_eq_right hlt.le]
    rw [hss _ (by linarith), hss _ hf.le]; ring
  · have hd := h.drain
    simp only [hlt, decide_false, Bool.false_eq_true, if_false, min_eq_left (not_lt.1 hlt)]
    rw [hss _ (by linarith), hss _ hf.le]; ring

/-- the linear region with `vmax`, without `lambda`: the channel is not shortened, but the code takes it to be when it comes to slopes
(d_mos2.model:540, 559-561): the output conductance is too large by the current over `w` -/
theorem level2_vmax_linear_wrong (p : P2) {vm : ℝ} (hv : p.vmax = some vm) (hvm : 0 < vm) (hs : p.sub = false) (hsh : p.short = false)
    (hl : p.lambda = none) (hxw : p.xwb ≤ p.leff) (hxd : 0 < p.xd) (hne : 0 < p.neff) (vgs vds vbs : ℝ) (h : p.Ok vds vbs) (hd : 0 < vds)
    (ha : 0 < p.over vgs vds vbs) (ueff : ℝ) (hue : ueff = p.uo * p.move (p.over vgs vds vbs)) (hu0 : 0 < ueff)
    (hb : (p.vsat (p.bulk vds vbs) ueff (vgs - p.T vbs)).baum = true) (hlin : vds < (p.vsat (p.bulk vds vbs) ueff (vgs - p.T vbs)).v) :
    let t := p.beta * p.move (p.over vgs vds vbs) * charge (vgs - p.T vbs) p.gamma (p.eta1 + 1) (p.tphi - vbs) vds
    HasDerivAt (fun x => (p.out vgs x vbs).ids) t vds ∧
    (p.out vgs vds vbs).gds = fixzero p.tol t (p.out vgs vds vbs).ids + (p.out vgs vds vbs).ids / (vm * p.leff / ueff) := by
  intro t
  have hG : ∀ x, p.G x vbs = p.gamma := fun x => by unfold P2.G; simp [hsh]
  have hf : 0 < p.tphi - vbs := by have := h.phi; have := h.bulk; linarith
  have hk := fun x => bulk_long p hsh x vbs
  have hover : ∀ x, p.over vgs x vbs = p.over vgs vds vbs := fun x => by unfold P2.over P2.Q; rw [hG, hG]; simp [hs]
  set m := p.move (p.over vgs vds vbs) with hmd
  set u := vgs - p.T vbs with hu
  set V := (p.vsat (p.bulk vds vbs) ueff u).v with hV
  have hVx : ∀ x, p.vsat (p.bulk x vbs) ueff u = p.vsat (p.bulk vds vbs) ueff u := fun x => by rw [hk, hk]; rfl
  have hss : ∀ y : ℝ, 0 ≤ y → Real.sqrt y * Real.sqrt y * Real.sqrt y = y * Real.sqrt y := fun y hy => by rw [Real.mul_self_sqrt hy]
  have hx0 : 0 < p.xd / Real.sqrt p.neff := div_pos hxd (Real.sqrt_pos.2 hne)
  have hle := h.len
  have key : ∀ x, 0 < x → x < V → (p.out vgs x vbs).ids = p.beta * m * drift u p.gamma (p.eta1 + 1) (p.tphi - vbs) x ∧
      (p.out vgs x vbs).gds = fixzero p.tol (p.beta * m * charge u p.gamma (p.eta1 + 1) (p.tphi - vbs) x) (p.out vgs x vbs).ids +
        (p.out vgs x vbs).ids / (vm * p.leff / ueff) := by
    intro x x0 xV
    have hx : p.Ok x vbs := { h with drain := x0.le }
    have hov : vgs - p.von (p.bulk x vbs) = p.over vgs vds vbs := by rw [von_eq p hx, ← hover x]; unfold P2.over; ring
    have hnl : ¬ vgs < p.von (p.bulk x vbs) := by linarith
    have hout : (p.out vgs x vbs).ids = (p.on (p.bulk x vbs) vgs (p.over vgs vds vbs)).ids ∧
        (p.out vgs x vbs).gds = (p.on (p.bulk x vbs) vgs (p.over vgs vds vbs)).gds := by
      unfold P2.out
      simp only [if_neg hnl, hov]
      split <;> exact ⟨rfl, rfl⟩
    have hm : (p.mob (p.over vgs vds vbs) (p.dvon (p.bulk x vbs))).f = m := by
      rw [hmd]
      unfold P2.mob P2.move
      cases p.uexp with
      | none => rfl
      | some e => simp only; split <;> rfl
    have e0 : vgs - p.vbin (p.bulk x vbs) = u := rfl
    have e2 : (p.bulk x vbs).vds = x := rfl
    have s1 := (bulk_s p hx).1
    have s4 := (bulk_s p hx).2.2.2
    have hmg : (p.bulk x vbs).m.g = p.gamma := by rw [gam_eq p hx, hG]
    obtain ⟨v1, v2⟩ := slopes_v p (p.bulk x vbs) ueff u (p.vsat (p.bulk x vbs) ueff u)
    rw [hVx, hb] at v2
    rw [hVx, ← hV] at v1
    rw [hVx] at v1 v2
    have hlen : (p.length ueff x (p.slopes (p.bulk x vbs) ueff u (p.vsat (p.bulk vds vbs) ueff u))).f = 1 ∧
        (p.length ueff x (p.slopes (p.bulk x vbs) ueff u (p.vsat (p.bulk vds vbs) ueff u))).d = -(1 / (vm * p.leff / ueff)) := by
      generalize p.slopes (p.bulk x vbs) ueff u (p.vsat (p.bulk vds vbs) ueff u) = s at v1 v2
      have hsh2 : p.shorten ueff x s = (1, 1 / (vm * p.leff / ueff)) := by
        unfold P2.shorten
        simp only [hv, v2, v1, if_pos (show x - V < 0 by linarith), add_zero]
        have : 0 ≤ vm * (p.xd / Real.sqrt p.neff) / (2 * ueff) := by positivity
        rw [Real.sqrt_mul_self this, sub_self, zero_mul, zero_div, sub_zero]
        congr 1
        generalize p.xd / Real.sqrt p.neff = y at *
        field_simp
      unfold P2.length
      simp only [if_pos x0.le, hl, hsh2]
      rw [if_neg (not_lt.2 ((div_le_one hle).2 hxw))]
      exact ⟨rfl, rfl⟩
    rw [hout.1, hout.2]
    unfold P2.on
    simp only [e0, hm, ← hue, e2, hVx, v1, hlen, hmg, s1, s4, not_lt.2 xV.le, decide_false, Bool.false_eq_true, if_false, hsh, div_one, sub_zero]
    unfold drift charge P2.eta
    rw [hss _ (by linarith), hss _ hf.le]
    refine ⟨by ring, ?_⟩
    rw [show p.beta * m * ((u - (p.eta1 + 1) / 2 * x) * x - 2 / 3 * p.gamma * ((p.tphi - vbs + x) * Real.sqrt (p.tphi - vbs + x) -
      (p.tphi - vbs) * Real.sqrt (p.tphi - vbs))) = p.beta * m * ((u - (p.eta1 + 1) / 2 * x) * x - 2 / 3 * p.gamma *
      ((p.tphi - vbs + x) * Real.sqrt (p.tphi - vbs + x) - (p.tphi - vbs) * Real.sqrt (p.tphi - vbs))) from rfl]
    rw [zero_div, zero_sub, neg_neg, mul_one_div]
  refine ⟨?_, (key vds hd hlin).2⟩
  have hD := (drift_path (e := p.eta1 + 1) (hasDerivAt_const vds u) (hasDerivAt_const vds p.gamma) (hasDerivAt_const vds (p.tphi - vbs))
    (hasDerivAt_id vds) hf (by simp only [id]; linarith)).const_mul (p.beta * m)
  have hE : (fun x => (p.out vgs x vbs).ids) =ᶠ[nhds vds] fun x => p.beta * m * drift u p.gamma (p.eta1 + 1) (p.tphi - vbs) (id x) := by
    filter_upwards [Ioo_mem_nhds hd hlin] with x hx
    exact (key x hx.1 hx.2).1
  refine (hD.congr_of_eventuallyEq hE).congr_deriv ?_
  simp only [id, mul_zero, sub_zero, zero_add, mul_one]
  show _ = p.beta * m * _
  ring

/-- `vmax` without doping, so without depletion layer: in the linear region the slopes are not numbers (d_mos2.model:540) -/
theorem level2_nan (p : P2) {vm : ℝ} (hv : p.vmax = some vm) (hl : p.lambda = none) (hs : p.sub = false) (hxd : p.xd = 0) (vgs vds vbs : ℝ)
    (ha : p.von (p.bulk vds vbs) ≤ vgs)
    (hb : (p.vsat (p.bulk vds vbs) (p.uo * (p.mob (vgs - p.von (p.bulk vds vbs)) (p.dvon (p.bulk vds vbs))).f)
      (vgs - p.vbin (p.bulk vds vbs))).baum = true)
    (hlin : vds ≤ (p.vsat (p.bulk vds vbs) (p.uo * (p.mob (vgs - p.von (p.bulk vds vbs)) (p.dvon (p.bulk vds vbs))).f)
      (vgs - p.vbin (p.bulk vds vbs))).v) : p.eval vgs vds vbs = none := by
  have : p.nan vgs vds vbs = true := by
    unfold P2.nan
    simp only [hs, Bool.not_false, Bool.true_and, Bool.false_and, Bool.false_eq_true, if_false, decide_eq_true_eq, if_neg (not_lt.2 ha), hv, hl, hb, hxd]
    rcases eq_or_lt_of_le hlin with h | h
    · rw [← h]; simp
    · rw [if_pos (by linarith)]; simp
  unfold P2.eval
  rw [if_pos this]

/-! ## Cases -/

/-- a device for the examples -/
def demoV (vm : ℝ) (lambda : Option ℝ) (xd : ℝ) : P2 where
  gamma := 0
  xd := xd
  xj := 1
  xwb := 1
  neff := 1
  vbp := 1
  cfsox := 0
  short := false
  sub := false
  lambda := lambda
  vmax := some vm
  uexp := none
  leff := 1
  eta1 := 0
  tphi := 1
  vbi := 0
  vt := 1
  uo := 1
  beta := 1
  alt := false
  tol := 0

theorem demoV_ok (vm : ℝ) (lambda : Option ℝ) {xd : ℝ} (hx : 0 ≤ xd) {vds vbs : ℝ} (hd : 0 ≤ vds) (hb : vbs ≤ 0) : (demoV vm lambda xd).Ok vds vbs where
  phi := by norm_num [demoV]
  len := by norm_num [demoV]
  eta := by norm_num [demoV]
  xwb := by norm_num [demoV]
  xd := hx
  xj := by norm_num [demoV]
  vbp := Or.inl rfl
  bulk := hb
  drain := hd

theorem demoV_quart (lambda : Option ℝ) {xd vds : ℝ} (hx : 0 ≤ xd) (hd : 0 ≤ vds) :
    (demoV 1 lambda xd).quart ((demoV 1 lambda xd).bulk vds 0) 1 1 10 = ⟨0, -24, 0, 43⟩ := by
  have hG : (demoV 1 lambda xd).G vds 0 = 0 := by simp [P2.G, demoV]
  unfold P2.quart
  rw [gam_eq _ (demoV_ok 1 lambda hx hd le_rfl), hG, show ((demoV 1 lambda xd).bulk vds 0).vbs = 0 from rfl]
  simp only [P2.eta, demoV]
  norm_num

/-- velocity of one volt, ten volts of drive: found -/
theorem demoV_found (lambda : Option ℝ) {xd vds : ℝ} (hx : 0 ≤ xd) (hd : 0 ≤ vds) :
    (∃ v, (0 ≤ v ∧ v ≤ vend 10 0 1 1 ∧ gap 10 0 1 1 1 v = 0) ∧
      |((demoV 1 lambda xd).vsat ((demoV 1 lambda xd).bulk vds 0) 1 10).v - v| ≤ 1 / 2000000) ∧
    ((demoV 1 lambda xd).vsat ((demoV 1 lambda xd).bulk vds 0) 1 10).baum = true := by
  have hG : (demoV 1 lambda xd).G vds 0 = 0 := by simp [P2.G, demoV]
  have hq := demoV_quart lambda hx hd
  have h := level2_vmax_end_partial (demoV 1 lambda xd) (vm := 1) (demoV_ok 1 lambda hx hd le_rfl) hG.ge rfl 1 10 (by norm_num [demoV])
    (by unfold P2.Q; rw [hG]; norm_num) (by rw [hq]; norm_num [Quart.S]) (by rw [hq]; norm_num [Quart.r])
  obtain ⟨v, ⟨h1, h2, h3⟩, h4, _, h5⟩ := h
  rw [hG] at h2 h3
  refine ⟨⟨v, ⟨h1, ?_, ?_⟩, ?_⟩, h5⟩
  · simpa [demoV] using h2
  · simpa [demoV] using h3
  · have e : 1 / (2000000 * (1 * (demoV 1 lambda xd).leff / 1)) = (1 : ℝ) / 2000000 := by norm_num [demoV]
    rw [e] at h4
    exact h4

theorem demoV_linear (lambda : Option ℝ) {xd : ℝ} (hx : 0 ≤ xd) :
    1 / 2 < ((demoV 1 lambda xd).vsat ((demoV 1 lambda xd).bulk (1 / 2) 0) 1 10).v := by
  obtain ⟨⟨v, ⟨_, _, h3⟩, h4⟩, _⟩ := demoV_found lambda hx (show (0 : ℝ) ≤ 1 / 2 by norm_num)
  have h5 := (abs_le.1 h4).1
  unfold gap drift charge at h3
  have : 9 / 10 < v := by nlinarith [sq_nonneg v]
  linarith

example : ∃ v v', (0 ≤ v ∧ v ≤ vend 10 0 1 1 ∧ gap 10 0 1 1 1 v = 0) ∧ 0 ≤ v' ∧ |v' - v| ≤ 1 / 2000000 ∧
    ((demoV 1 (some 0) 1).out 10 20 0).ids = drift 10 0 1 1 (min 20 v') := by
  have hG : (demoV 1 (some 0) 1).G 20 0 = 0 := by simp [P2.G, demoV]
  have hT : (10 : ℝ) - (demoV 1 (some 0) 1).T 0 = 10 := by norm_num [P2.T, demoV]
  have ho : (demoV 1 (some 0) 1).over 10 20 0 = 10 := by
    unfold P2.over P2.Q; rw [hG, hT]; norm_num [demoV]
  have hm : (demoV 1 (some 0) 1).move 10 = 1 := rfl
  have hq := demoV_quart (some 0) (show (0 : ℝ) ≤ 1 by norm_num) (show (0 : ℝ) ≤ 20 by norm_num)
  have e : (demoV 1 (some 0) 1).uo * 1 = 1 := by norm_num [demoV]
  have h := level2_vmax_current_partial (demoV 1 (some 0) 1) (vm := 1) (l := 0) rfl rfl 10 20 0 (demoV_ok 1 _ (by norm_num) (by norm_num) le_rfl)
    hG.ge (by simp [demoV]) (by rw [ho]; norm_num) 1 (by rw [ho, hm]; norm_num [demoV]) one_pos
    (by rw [ho, hm, hT, e, hq]; norm_num [Quart.S]) (by rw [ho, hm, hT, e, hq]; norm_num [Quart.r])
  rw [hT, hG, ho, hm] at h
  obtain ⟨v, v', h1, h2, h3, h4⟩ := h
  have e1 : (demoV 1 (some 0) 1).eta1 + 1 = 1 := by norm_num [demoV]
  have e2 : (demoV 1 (some 0) 1).tphi - 0 = 1 := by norm_num [demoV]
  rw [e1, e2] at h1 h4
  refine ⟨v, v', h1, h2, by simpa using h3, ?_⟩
  rw [h4]
  unfold pinch
  norm_num [demoV]

-- the linear region: half a volt
example : ((demoV 1 none 1).out 10 (1 / 2) 0).gds = deriv (fun x => ((demoV 1 none 1).out 10 x 0).ids) (1 / 2) + ((demoV 1 none 1).out 10 (1 / 2) 0).ids := by
  have hG : (demoV 1 none 1).G (1 / 2) 0 = 0 := by simp [P2.G, demoV]
  have hT : (10 : ℝ) - (demoV 1 none 1).T 0 = 10 := by norm_num [P2.T, demoV]
  have ho : (demoV 1 none 1).over 10 (1 / 2) 0 = 10 := by
    unfold P2.over P2.Q; rw [hG, hT]; norm_num [demoV]
  have hm : (demoV 1 none 1).move 10 = 1 := rfl
  obtain ⟨h1, h2⟩ := level2_vmax_linear_wrong (demoV 1 none 1) (vm := 1) rfl one_pos rfl rfl rfl (by norm_num [demoV]) (by norm_num [demoV])
    (by norm_num [demoV]) 10 (1 / 2) 0 (demoV_ok 1 _ (by norm_num) (by norm_num) le_rfl) (by norm_num) (by rw [ho]; norm_num) 1
    (by rw [ho, hm]; norm_num [demoV]) one_pos (by rw [hT]; exact (demoV_found none (by norm_num) (by norm_num)).2)
    (by rw [hT]; exact demoV_linear none (by norm_num))
  rw [h1.deriv, h2]
  have e : (1 : ℝ) * (demoV 1 none 1).leff / 1 = 1 := by norm_num [demoV]
  rw [e, div_one]
  congr 1
  unfold fixzero
  rw [if_neg]
  simp only [demoV, mul_zero, abs_zero, not_lt]
  exact abs_nonneg _

-- the same, not doped
example : (demoV 1 none 0).eval 10 (1 / 2) 0 = none := by
  have hG : (demoV 1 none 0).G (1 / 2) 0 = 0 := by simp [P2.G, demoV]
  have hok := demoV_ok 1 none (xd := 0) le_rfl (show (0 : ℝ) ≤ 1 / 2 by norm_num) le_rfl
  have hvon : (demoV 1 none 0).von ((demoV 1 none 0).bulk (1 / 2) 0) = 0 := by
    rw [von_eq _ hok]; unfold P2.Q; rw [hG]; norm_num [demoV, P2.T]
  have hm : ∀ a b, (demoV 1 none 0).uo * ((demoV 1 none 0).mob a b).f = 1 := fun a b => by unfold P2.mob; norm_num [demoV]
  have hb : (10 : ℝ) - (demoV 1 none 0).vbin ((demoV 1 none 0).bulk (1 / 2) 0) = 10 := by
    unfold P2.vbin; norm_num [demoV]
  refine level2_nan (demoV 1 none 0) (vm := 1) rfl rfl rfl rfl 10 (1 / 2) 0 (by rw [hvon]; norm_num) ?_ ?_
  · rw [hm, hb]; exact (demoV_found none le_rfl (by norm_num)).2
  · rw [hm, hb]; exact (demoV_linear none le_rfl).le

-- forty volts, and one volt of drive: missed
example : (demoV 40 none 1).out 1 5 0 = ({ demoV 40 none 1 with vmax := none } : P2).out 1 5 0 := by
  have h5 : (5 : ℝ) ≤ Real.sqrt 33 := Real.le_sqrt_of_sq_le (by norm_num)
  have h6 : Real.sqrt 33 ≤ 6 := Real.sqrt_le_iff.2 ⟨by norm_num, by norm_num⟩
  refine level2_vmax_ignored (demoV 40 none 1) (vm := 40) rfl rfl rfl rfl 1 5 0 (demoV_ok 40 _ (by norm_num) (by norm_num) le_rfl) 2 40 1
    (by norm_num [demoV]) (by norm_num [demoV]) (by norm_num [demoV, P2.T]) (by norm_num) (by norm_num) (by norm_num) ?_
  rw [show ((2 : ℝ) + 40) ^ 2 / 9 - (2 * 2 * (1 + 40) - 1 ^ 2) = 33 by norm_num]
  nlinarith

end Gnucap.Mos
