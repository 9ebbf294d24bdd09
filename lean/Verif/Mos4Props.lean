import Verif.Mos4Model
import Verif.MosProps
import Mathlib.Analysis.SpecialFunctions.ExpDeriv
import Mathlib.Order.Bounds.Basic

/-!
# Mosfet, level 4 (BSIM1) (C91)
-/
set_option linter.unusedSimpArgs false
set_option linter.unusedVariables false
namespace Gnucap.Mos

/-! ## The law -/

/-- Specification: the current below saturation for `u` above threshold, body factor `A`, velocity saturation `U` -/
noncomputable def tri (u A U x : ℝ) : ℝ := (u - A * x / 2) * x / (1 + U * x)

/-- Specification: the drain voltage with the largest current -/
noncomputable def top (u A U : ℝ) : ℝ := 2 * u / (A * (1 + Real.sqrt (1 + 2 * U * u / A)))

/-- Specification: the current, in units of the gain: that below saturation, then its largest value -/
noncomputable def drain (u A U v : ℝ) : ℝ := if u ≤ 0 then 0 else tri u A U (min v (top u A U))

/-- slope of `tri` with the drain voltage -/
noncomputable def triD (u A U x : ℝ) : ℝ := (u - A * x - A * U * x ^ 2 / 2) / (1 + U * x) ^ 2

theorem tri_path (u A U x : ℝ → ℝ) (u' A' U' x' t : ℝ) (hu : HasDerivAt u u' t) (hA : HasDerivAt A A' t) (hU : HasDerivAt U U' t)
    (hx : HasDerivAt x x' t) (hn : 1 + U t * x t ≠ 0) :
    HasDerivAt (fun y => tri (u y) (A y) (U y) (x y))
      ((x t * u' - x t ^ 2 / 2 * A' - tri (u t) (A t) (U t) (x t) * x t * U') / (1 + U t * x t) + triD (u t) (A t) (U t) (x t) * x') t := by
  unfold tri
  refine (((hu.sub ((hA.mul hx).div_const 2)).mul hx).div ((hU.mul hx).const_add 1) hn).congr_deriv ?_
  unfold triD
  simp only [Pi.mul_apply, Pi.sub_apply, Pi.div_apply, Pi.pow_apply]
  generalize hm : 1 + U t * x t = m at *
  have hUx : U t * x t = m - 1 := by linarith
  field_simp
  linear_combination (x' * A t * x t - x' * (u t * 2 - A t * x t)) * hUx

theorem top_root {u A U : ℝ} (hA : 0 < A) (hU : 0 ≤ U) (hu : 0 ≤ u) :
    let w := Real.sqrt (1 + 2 * U * u / A)
    1 ≤ w ∧ w ^ 2 = 1 + 2 * U * u / A ∧ 1 + U * top u A U = w ∧ A * (1 + w) * top u A U = 2 * u := by
  intro w
  have h0 : 0 ≤ 2 * U * u / A := by positivity
  have hw : w ^ 2 = 1 + 2 * U * u / A := Real.sq_sqrt (by linarith)
  have h1 : 1 ≤ w := Real.one_le_sqrt.2 (by linarith)
  have h2 : A * (1 + w) * top u A U = 2 * u := by
    unfold top
    show A * (1 + w) * (2 * u / (A * (1 + w))) = 2 * u
    have : (1 : ℝ) + w ≠ 0 := by linarith
    field_simp
  refine ⟨h1, hw, ?_, h2⟩
  have h3 : A * (w ^ 2 - 1) = 2 * U * u := by rw [hw]; field_simp; ring
  have h4 : A * (1 + w) * (U * top u A U - (w - 1)) = 0 := by linear_combination U * h2 - h3
  have h5 : A * (1 + w) ≠ 0 := by positivity
  have := (mul_eq_zero.1 h4).resolve_left h5
  linarith

theorem top_nonneg {u A U : ℝ} (hA : 0 < A) (hu : 0 ≤ u) : 0 ≤ top u A U := by unfold top; positivity

theorem top_pos {u A U : ℝ} (hA : 0 < A) (hu : 0 < u) : 0 < top u A U := by unfold top; positivity

/-- the slope vanishes at the top -/
theorem triD_top {u A U : ℝ} (hA : 0 < A) (hU : 0 ≤ U) (hu : 0 ≤ u) : triD u A U (top u A U) = 0 := by
  obtain ⟨h1, h2, h3, h4⟩ := top_root hA hU hu
  generalize Real.sqrt (1 + 2 * U * u / A) = w at *
  unfold triD
  rw [div_eq_zero_iff]; left
  generalize top u A U = x at *
  linear_combination (-1 / 2) * h4 + (-A * x / 2) * h3

/-- and it is positive below, negative above: the top is where the current is largest -/
theorem tri_le_top {u A U x : ℝ} (hA : 0 < A) (hU : 0 ≤ U) (hu : 0 ≤ u) (hx : 0 ≤ x) : tri u A U x ≤ tri u A U (top u A U) := by
  obtain ⟨h1, h2, h3, h4⟩ := top_root hA hU hu
  generalize Real.sqrt (1 + 2 * U * u / A) = w at *
  have hy := top_nonneg (U := U) hA hu
  generalize top u A U = y at *
  unfold tri
  have hw : 0 < 1 + U * y := by linarith
  have hz : 0 < 1 + U * x := by positivity
  rw [div_le_div_iff₀ hz hw]
  have e : 2 * u = A * (1 + (1 + U * y)) * y := by rw [h3]; exact h4.symm
  have : (u - A * y / 2) * y * (1 + U * x) - (u - A * x / 2) * x * (1 + U * y) = A / 2 * (x - y) ^ 2 * (1 + U * y) := by
    linear_combination (y * (1 + U * x) - x * (1 + U * y)) / 2 * e
  nlinarith [mul_nonneg (mul_nonneg hA.le (sq_nonneg (x - y))) hw.le]

theorem top_diff (u A U : ℝ → ℝ) (u' A' U' t : ℝ) (hu : HasDerivAt u u' t) (hA : HasDerivAt A A' t) (hU : HasDerivAt U U' t) (hA0 : 0 < A t)
    (hU0 : 0 ≤ U t) (hu0 : 0 ≤ u t) : ∃ x', HasDerivAt (fun y => top (u y) (A y) (U y)) x' t := by
  have h0 : 0 < 1 + 2 * U t * u t / A t := by positivity
  have hr : HasDerivAt (fun y => Real.sqrt (1 + 2 * U y * u y / A y)) _ t :=
    ((((hU.const_mul 2).mul hu).div hA hA0.ne').const_add 1).sqrt h0.ne'
  have hd : A t * (1 + Real.sqrt (1 + 2 * U t * u t / A t)) ≠ 0 := by positivity
  exact ⟨_, (hu.const_mul 2).div (hA.mul (hr.const_add 1)) hd⟩

/-- **C91, saturation**: the current is the largest that the law below saturation gives up to the drain voltage. -/
theorem drain_greatest {u A U v : ℝ} (hA : 0 < A) (hU : 0 ≤ U) (hu : 0 < u) (hv : 0 ≤ v) :
    IsGreatest ((fun x => tri u A U x) '' Set.Icc 0 v) (drain u A U v) := by
  have hy := top_nonneg (U := U) hA hu.le
  unfold drain
  rw [if_neg (not_le.2 hu)]
  refine ⟨⟨min v (top u A U), ⟨le_min hv hy, min_le_left _ _⟩, rfl⟩, ?_⟩
  rintro _ ⟨x, ⟨hx0, hxv⟩, rfl⟩
  simp only
  rcases le_total (top u A U) v with h | h
  · rw [min_eq_right h]; exact tri_le_top hA hU hu.le hx0
  · rw [min_eq_left h]
    obtain ⟨h1, h2, h3, h4⟩ := top_root hA hU hu.le
    generalize Real.sqrt (1 + 2 * U * u / A) = w at *
    generalize top u A U = y at *
    unfold tri
    have hz : 0 < 1 + U * x := by positivity
    have hz' : 0 < 1 + U * v := by positivity
    rw [div_le_div_iff₀ hz hz']
    have e : 2 * u = A * (1 + (1 + U * y)) * y := by rw [h3]; exact h4.symm
    have : (u - A * v / 2) * v * (1 + U * x) - (u - A * x / 2) * x * (1 + U * v) =
        A / 2 * (v - x) * ((y - v) + (y - x) + U * (y ^ 2 - v * x)) := by
      linear_combination (v * (1 + U * x) - x * (1 + U * v)) / 2 * e
    have h6 : v * x ≤ y ^ 2 := by nlinarith
    have h5 : 0 ≤ A / 2 * (v - x) * ((y - v) + (y - x) + U * (y ^ 2 - v * x)) := by
      apply mul_nonneg (mul_nonneg (by linarith) (by linarith))
      have := mul_nonneg hU (sub_nonneg.2 h6)
      linarith
    linarith

/-- the slopes of `drain` along a path -/
theorem drain_path (u A U v : ℝ → ℝ) (u' A' U' v' t : ℝ) (hu : HasDerivAt u u' t) (hA : HasDerivAt A A' t) (hU : HasDerivAt U U' t)
    (hv : HasDerivAt v v' t) (hA0 : 0 < A t) (hU0 : 0 ≤ U t) (hv0 : 0 ≤ v t) (h : u t ≠ 0 ∨ 0 < v t) :
    let x := min (v t) (top (u t) (A t) (U t))
    HasDerivAt (fun y => drain (u y) (A y) (U y) (v y))
      (if u t ≤ 0 then 0
      else (x * u' - x ^ 2 / 2 * A' - tri (u t) (A t) (U t) x * x * U') / (1 + U t * x) + triD (u t) (A t) (U t) x * v') t := by
  intro x
  rcases lt_trichotomy (u t) 0 with hn | hz | hp
  · rw [if_pos hn.le]
    refine (hasDerivAt_const t (0 : ℝ)).congr_of_eventuallyEq ?_
    filter_upwards [hu.continuousAt.eventually (gt_mem_nhds hn)] with y hy
    simp only [drain, if_pos hy.le]
  · have hv1 : 0 < v t := h.resolve_left (by simp [hz])
    rw [if_pos hz.le]
    obtain ⟨x', hx'⟩ := top_diff u A U u' A' U' t hu hA hU hA0 hU0 hz.ge
    have htop : top (u t) (A t) (U t) = 0 := by simp [top, hz]
    have hB := tri_path u A U _ u' A' U' x' t hu hA hU hx' (by simp [htop])
    have hB' : HasDerivAt (fun y => tri (u y) (A y) (U y) (top (u y) (A y) (U y))) 0 t := by
      refine hB.congr_deriv ?_
      rw [triD_top hA0 hU0 hz.ge, htop]; simp
    have hev : ∀ᶠ y in nhds t, drain (u y) (A y) (U y) (v y) = if u y ≤ 0 then 0 else tri (u y) (A y) (U y) (top (u y) (A y) (U y)) := by
      have h1 : ∀ᶠ y in nhds t, top (u y) (A y) (U y) < v y := hx'.continuousAt.eventually_lt hv.continuousAt (by rw [htop]; exact hv1)
      filter_upwards [h1] with y hy
      simp only [drain, min_eq_right hy.le]
    refine HasDerivAt.congr_of_eventuallyEq ?_ hev
    refine hasDerivAt_either _ _ _ _ _ hB' (hasDerivAt_const t (0 : ℝ)) (by simp [htop, tri]) fun y => ?_
    by_cases hy : u y ≤ 0
    · right; simp [hy]
    · left; simp [hy]
  · rw [if_neg (not_le.2 hp)]
    obtain ⟨x', hx'⟩ := top_diff u A U u' A' U' t hu hA hU hA0 hU0 hp.le
    have hy0 := top_nonneg (U := U t) hA0 hp.le
    have hT := tri_path u A U v u' A' U' v' t hu hA hU hv (by positivity)
    have hB := tri_path u A U _ u' A' U' x' t hu hA hU hx' (by positivity)
    rw [triD_top hA0 hU0 hp.le, zero_mul, add_zero] at hB
    have hpos : ∀ᶠ y in nhds t, 0 < u y := hu.continuousAt.eventually (lt_mem_nhds hp)
    rcases lt_trichotomy (v t) (top (u t) (A t) (U t)) with hc | hc | hc
    · have hx : x = v t := min_eq_left hc.le
      rw [hx]
      refine hT.congr_of_eventuallyEq ?_
      filter_upwards [hpos, hv.continuousAt.eventually_lt hx'.continuousAt hc] with y hy hy'
      simp only [drain, if_neg (not_le.2 hy), min_eq_left hy'.le]
    · have hx : x = v t := min_eq_left hc.le
      rw [hx]
      have hzero : triD (u t) (A t) (U t) (v t) = 0 := by rw [hc]; exact triD_top hA0 hU0 hp.le
      rw [hzero, zero_mul, add_zero] at hT ⊢
      rw [← hc] at hB
      have key := hasDerivAt_either _ _ (fun y => tri (u y) (A y) (U y) (min (v y) (top (u y) (A y) (U y)))) _ _ hT hB (by simp only [← hc]) fun y => by
        rcases le_total (v y) (top (u y) (A y) (U y)) with h | h
        · left; simp only [min_eq_left h]
        · right; simp only [min_eq_right h]
      refine key.congr_of_eventuallyEq ?_
      filter_upwards [hpos] with y hy
      simp only [drain, if_neg (not_le.2 hy)]
    · have hx : x = top (u t) (A t) (U t) := min_eq_right hc.le
      rw [hx, triD_top hA0 hU0 hp.le, zero_mul, add_zero]
      refine hB.congr_of_eventuallyEq ?_
      filter_upwards [hpos, hx'.continuousAt.eventually_lt hv.continuousAt hc] with y hy hy'
      simp only [drain, if_neg (not_le.2 hy), min_eq_right hy'.le]

/-! ## What the law is made of -/

/-- Specification: body factor -/
noncomputable def P4.A (p : P4) (vbs : ℝ) : ℝ :=
  1 + p.k1 / (2 * Real.sqrt (p.phi - vbs)) * (1 - 1 / (1.744 + 0.8364 * (p.phi - vbs)))

/-- Specification: a number kept between 0 and 1 -/
noncomputable def unit (x : ℝ) : ℝ := max 0 (min x 1)

/-- Specification: static feedback of the drain -/
noncomputable def P4.feedback (p : P4) (vds vbs : ℝ) : ℝ := p.eta + p.etaB * vbs + p.etaD * (vds - p.vdd)

/-- Specification: threshold -/
noncomputable def P4.vth (p : P4) (vds vbs : ℝ) : ℝ :=
  p.vfb + p.phi + p.k1 * Real.sqrt (p.phi - vbs) - p.k2 * (p.phi - vbs) - unit (p.feedback vds vbs) * vds

/-- Specification: what the gate takes from mobility, never negative -/
noncomputable def P4.U0 (p : P4) (vbs : ℝ) : ℝ := pos (p.ugs + p.ugsB * vbs)

/-- Specification: velocity saturation, never negative -/
noncomputable def P4.drag (p : P4) (vds vbs : ℝ) : ℝ := p.uds + p.udsB * vbs + p.udsD * (vds - p.vdd)
noncomputable def P4.U1 (p : P4) (vds vbs : ℝ) : ℝ := pos (p.drag vds vbs) / p.leff

/-- Specification: gain: from that at no drain voltage a parabola to that at the supply, straight on from there with a slope that is
not negative -/
noncomputable def P4.gain (p : P4) (vds vbs : ℝ) : ℝ :=
  (p.betaVdd + p.betaVddB * vbs) + pos p.betaVddD * (vds - p.vdd) +
    ((p.betaZero + p.betaZeroB * vbs) - (p.betaVdd + p.betaVddB * vbs) + pos p.betaVddD * p.vdd) / p.vdd ^ 2 * pos (p.vdd - vds) ^ 2

/-- Specification: slope of weak inversion, never below one half -/
noncomputable def P4.slope (p : P4) (vds vbs : ℝ) : ℝ := p.n0 + p.nB * vbs + p.nD * vds
noncomputable def P4.N (p : P4) (vds vbs : ℝ) : ℝ := max (p.slope vds vbs) (1 / 2)

/-- two currents of which the smaller counts -/
noncomputable def both (a b : ℝ) : ℝ := a * b / (a + b)

/-- Specification: current of weak inversion, an exponential that gives way to a limit -/
noncomputable def P4.weak (p : P4) (u vds vbs : ℝ) : ℝ :=
  both (4.5 * p.vt ^ 2 * p.betaZero) (6.04965 * p.vt ^ 2 * p.betaZero * Real.exp (u / (p.N vds vbs * p.vt)) * (1 - Real.exp (-vds / p.vt)))

/-- Specification: current above threshold -/
noncomputable def P4.strong (p : P4) (u vds vbs : ℝ) : ℝ := p.gain vds vbs / (1 + p.U0 vbs * u) * drain u (p.A vbs) (p.U1 vds vbs) vds

/-- **Specification**: the current -/
noncomputable def P4.I (p : P4) (vgs vds vbs : ℝ) : ℝ :=
  let u := vgs - p.vth vds vbs
  p.strong u vds vbs + if p.n0 < 200 then p.weak u vds vbs else 0

structure P4.Ok (p : P4) (vbs : ℝ) : Prop where
  phi : 0 < p.phi
  k1 : 0 ≤ p.k1
  back : vbs ≤ 0
  len : 0 < p.leff
  vt : 0 < p.vt

/-! ## Steps -/

theorem vpb4 (p : P4) {vbs : ℝ} (h : p.Ok vbs) : p.vpb vbs = p.phi - vbs ∧ 0 < p.phi - vbs := by
  refine ⟨if_pos h.back, ?_⟩
  have := h.phi; have := h.back; linarith

theorem A4 (p : P4) {vbs : ℝ} (h : p.Ok vbs) : (p.aAt vbs).1 = p.A vbs ∧ 1 ≤ p.A vbs ∧ HasDerivAt p.A (p.aAt vbs).2 vbs := by
  obtain ⟨e, hv⟩ := vpb4 p h
  have hs : 0 < Real.sqrt (p.phi - vbs) := Real.sqrt_pos.2 hv
  have hq : Real.sqrt (p.phi - vbs) ^ 2 = p.phi - vbs := Real.sq_sqrt hv.le
  have hd : 0 < 1744 / 1000 + 8364 / 10000 * (p.phi - vbs) := by linarith
  have hg : 0 ≤ 1 - 1 / (1744 / 1000 + 8364 / 10000 * (p.phi - vbs)) := by
    rw [sub_nonneg, div_le_one hd]; linarith
  have hA : 1 + 1 / 2 * (1 - 1 / (1744 / 1000 + 8364 / 10000 * (p.phi - vbs))) * p.k1 / Real.sqrt (p.phi - vbs) = p.A vbs := by
    unfold P4.A
    norm_num
    field_simp
  have h1 : 1 ≤ p.A vbs := by
    rw [← hA]
    have := div_nonneg (mul_nonneg (mul_nonneg (by norm_num : (0:ℝ) ≤ 1 / 2) hg) h.k1) hs.le
    linarith
  refine ⟨?_, h1, ?_⟩
  · unfold P4.aAt
    simp only [e]
    rw [hA, max_eq_left h1]
  · have hpv : HasDerivAt (fun y => p.phi - y) (-1) vbs := by simpa using (hasDerivAt_id vbs).const_sub p.phi
    have hsq := hpv.sqrt hv.ne'
    have hdd : HasDerivAt (fun y => 1.744 + 0.8364 * (p.phi - y)) (0.8364 * (-1)) vbs := (hpv.const_mul _).const_add _
    have hd' : (1.744 : ℝ) + 0.8364 * (p.phi - vbs) ≠ 0 := by norm_num at hd ⊢; exact hd.ne'
    have := ((hasDerivAt_const vbs p.k1).div (hsq.const_mul 2) (by positivity)).mul (((hasDerivAt_const vbs (1 : ℝ)).div hdd hd').const_sub 1)
    refine (this.const_add 1).congr_deriv ?_
    unfold P4.aAt
    simp only [e, Pi.div_apply]
    rw [show (1.744 : ℝ) = 1744 / 1000 by norm_num, show (0.8364 : ℝ) = 8364 / 10000 by norm_num]
    generalize hs' : Real.sqrt (p.phi - vbs) = s at *
    generalize hm : (1744 : ℝ) / 1000 + 8364 / 10000 * (p.phi - vbs) = m at *
    rw [← hq] at hm ⊢
    field_simp
    ring

theorem kink (r : ℝ → ℝ) (r' t : ℝ) (hr : HasDerivAt r r' t) (h : r t ≠ 0 ∨ ∀ y, r y = r t) :
    HasDerivAt (fun y => pos (r y)) (if r t ≤ 0 then 0 else r') t := by
  rcases h with h | h
  · rcases lt_or_gt_of_ne h with h | h
    · rw [if_pos h.le]
      refine (hasDerivAt_const t (0 : ℝ)).congr_of_eventuallyEq ?_
      filter_upwards [hr.continuousAt.eventually (gt_mem_nhds h)] with y hy
      exact max_eq_right (le_of_lt hy)
    · rw [if_neg (not_le.2 h)]
      refine hr.congr_of_eventuallyEq ?_
      filter_upwards [hr.continuousAt.eventually (lt_mem_nhds h)] with y hy
      exact max_eq_left (le_of_lt hy)
  · have hc : HasDerivAt r 0 t := by
      have : r = fun _ => r t := funext h
      rw [this]; exact hasDerivAt_const _ _
    have : r' = 0 := hr.unique hc
    subst this
    rw [ite_self]
    have : (fun y => pos (r y)) = fun _ => pos (r t) := funext fun y => by rw [h y]
    rw [this]; exact hasDerivAt_const _ _

theorem unit_eq (x : ℝ) : unit x = pos x - pos (x - 1) := by
  unfold unit pos
  rcases le_total x 0 with h | h
  · rw [min_eq_left (by linarith), max_eq_left h, max_eq_right h, max_eq_right (by linarith)]; ring
  · rcases le_total x 1 with h' | h'
    · rw [min_eq_left h', max_eq_right h, max_eq_left h, max_eq_right (by linarith)]; ring
    · rw [min_eq_right h', max_eq_right zero_le_one, max_eq_left h, max_eq_left (by linarith)]; ring

theorem unit_path (r : ℝ → ℝ) (r' t : ℝ) (hr : HasDerivAt r r' t) (h : (r t ≠ 0 ∧ r t ≠ 1) ∨ ∀ y, r y = r t) :
    HasDerivAt (fun y => unit (r y)) (if r t ≤ 0 then 0 else if 1 < r t then 0 else r') t := by
  have h1 := kink r r' t hr (h.imp And.left id)
  have h2 := kink (fun y => r y - 1) r' t (hr.sub_const 1) (h.imp (fun h => sub_ne_zero.2 h.2) fun h y => by rw [h y])
  have := h1.sub h2
  have e : (fun y => unit (r y)) = (fun y => pos (r y)) - fun y => pos (r y - 1) := funext fun y => unit_eq _
  rw [e]
  refine this.congr_deriv ?_
  by_cases a : r t ≤ 0
  · rw [if_pos a, if_pos a, if_pos (by linarith)]; ring
  · rw [if_neg a, if_neg a]
    by_cases b : 1 < r t
    · rw [if_pos b, if_neg (by linarith)]; ring
    · rw [if_neg b, if_pos (by linarith)]; ring

theorem etaAt4 (p : P4) (vds vbs : ℝ) : (p.etaAt vds vbs).1 = unit (p.feedback vds vbs) := by
  unfold P4.etaAt
  simp only
  change (if p.feedback vds vbs ≤ 0 then _ else if 1 < p.feedback vds vbs then _ else (p.feedback vds vbs, _) : ℝ × ℝ × ℝ).1 = _
  unfold unit
  split_ifs with h1 h2
  · rw [min_eq_left (by linarith), max_eq_left h1]
  · rw [min_eq_right h2.le, max_eq_right zero_le_one]
  · rw [min_eq_left (not_lt.1 h2), max_eq_right (not_le.1 h1).le]

theorem von4 (p : P4) {vbs : ℝ} (h : p.Ok vbs) (vds : ℝ) : (p.vonAt vds vbs).1 = p.vth vds vbs := by
  unfold P4.vonAt P4.vth
  simp only [(vpb4 p h).1, etaAt4]

theorem von_path (p : P4) (d b : ℝ → ℝ) (d' b' t : ℝ) (hd : HasDerivAt d d' t) (hb : HasDerivAt b b' t) (h : p.Ok (b t))
    (he : (p.feedback (d t) (b t) ≠ 0 ∧ p.feedback (d t) (b t) ≠ 1) ∨ (p.etaB = 0 ∧ p.etaD = 0)) :
    HasDerivAt (fun y => p.vth (d y) (b y)) ((p.vonAt (d t) (b t)).2.1 * d' + (p.vonAt (d t) (b t)).2.2 * b') t := by
  obtain ⟨e, hv⟩ := vpb4 p h
  have hr : HasDerivAt (fun y => p.feedback (d y) (b y)) (p.etaB * b' + p.etaD * d') t :=
    ((hb.const_mul p.etaB).const_add p.eta).add ((hd.sub_const p.vdd).const_mul p.etaD)
  have hu := unit_path _ _ t hr (he.imp id fun ⟨h1, h2⟩ y => by simp only [P4.feedback, h1, h2]; ring)
  have hpb : HasDerivAt (fun y => p.phi - b y) (-b') t := hb.const_sub p.phi
  have hs := (hpb.sqrt hv.ne').const_mul p.k1
  have := (((hs.const_add (p.vfb + p.phi)).sub (hpb.const_mul p.k2)).sub (hu.mul hd))
  refine this.congr_deriv ?_
  unfold P4.vonAt
  simp only [e]
  rw [etaAt4]
  unfold P4.etaAt
  simp only
  change _ = (-_ - (if p.feedback (d t) (b t) ≤ 0 then _ else if 1 < p.feedback (d t) (b t) then _ else (p.feedback (d t) (b t), _) : ℝ × ℝ × ℝ).2.1 * _) * _ + (_ - (if p.feedback (d t) (b t) ≤ 0 then _ else if 1 < p.feedback (d t) (b t) then _ else (p.feedback (d t) (b t), _) : ℝ × ℝ × ℝ).2.2 * _) * _
  have hsp : 0 < Real.sqrt (p.phi - b t) := Real.sqrt_pos.2 hv
  split_ifs <;> field_simp <;> ring

theorem ugs4 (p : P4) (vbs : ℝ) : (p.ugsAt vbs).1 = p.U0 vbs := by
  unfold P4.ugsAt P4.U0 pos
  simp only
  split_ifs with h
  · exact (max_eq_right h).symm
  · exact (max_eq_left (not_le.1 h).le).symm

theorem ugs_path (p : P4) (b : ℝ → ℝ) (b' t : ℝ) (hb : HasDerivAt b b' t) (hu : p.ugs + p.ugsB * b t ≠ 0 ∨ p.ugsB = 0) :
    HasDerivAt (fun y => p.U0 (b y)) ((p.ugsAt (b t)).2 * b') t := by
  have := kink (fun y => p.ugs + p.ugsB * b y) _ t ((hb.const_mul p.ugsB).const_add p.ugs) (hu.imp id fun h y => by simp only [h]; ring)
  refine this.congr_deriv ?_
  unfold P4.ugsAt
  simp only
  split_ifs <;> ring

theorem uds4 (p : P4) {vbs : ℝ} (vds : ℝ) : (p.udsAt vds vbs).1 = p.U1 vds vbs := by
  unfold P4.udsAt P4.U1 pos P4.drag
  simp only
  split_ifs with h
  · rw [max_eq_right h]; simp
  · rw [max_eq_left (not_le.1 h).le]

theorem uds_path (p : P4) (d b : ℝ → ℝ) (d' b' t : ℝ) (hd : HasDerivAt d d' t) (hb : HasDerivAt b b' t)
    (hu : p.drag (d t) (b t) ≠ 0 ∨ (p.udsB = 0 ∧ p.udsD = 0)) :
    HasDerivAt (fun y => p.U1 (d y) (b y)) ((p.udsAt (d t) (b t)).2.1 * d' + (p.udsAt (d t) (b t)).2.2 * b') t := by
  have hr : HasDerivAt (fun y => p.drag (d y) (b y)) (p.udsB * b' + p.udsD * d') t :=
    ((hb.const_mul p.udsB).const_add p.uds).add ((hd.sub_const p.vdd).const_mul p.udsD)
  have := (kink _ _ t hr (hu.imp id fun ⟨h1, h2⟩ y => by simp only [P4.drag, h1, h2]; ring)).div_const p.leff
  refine this.congr_deriv ?_
  unfold P4.udsAt
  simp only
  change _ = (if p.drag (d t) (b t) ≤ 0 then _ else (_, _) : ℝ × ℝ × ℝ).2.1 * _ + (if p.drag (d t) (b t) ≤ 0 then _ else (_, _) : ℝ × ℝ × ℝ).2.2 * _
  split_ifs <;> simp <;> ring

theorem gain4 (p : P4) (vds vbs : ℝ) (h : p.vdd ≠ 0 ∨ p.vdd < vds) : ∃ D B, p.beta0At vds vbs = some (p.gain vds vbs, D, B) ∧
    ∀ (d b : ℝ → ℝ) (d' b' t : ℝ), d t = vds → b t = vbs → HasDerivAt d d' t → HasDerivAt b b' t →
      HasDerivAt (fun y => p.gain (d y) (b y)) (D * d' + B * b') t := by
  have hpath : ∀ (d b : ℝ → ℝ) (d' b' t : ℝ), HasDerivAt d d' t → HasDerivAt b b' t →
      HasDerivAt (fun y => p.gain (d y) (b y)) ((p.betaVddB * b' + pos p.betaVddD * d') +
        ((p.betaZeroB * b' - p.betaVddB * b') / p.vdd ^ 2 * pos (p.vdd - d t) ^ 2 +
        ((p.betaZero + p.betaZeroB * b t) - (p.betaVdd + p.betaVddB * b t) + pos p.betaVddD * p.vdd) / p.vdd ^ 2 * (2 * pos (p.vdd - d t) * -d'))) t := by
    intro d b d' b' t hd hb
    have h1 := (hb.const_mul p.betaVddB).const_add p.betaVdd
    have h0 := (hb.const_mul p.betaZeroB).const_add p.betaZero
    have h2 := pos_sq_path _ _ t (hd.const_sub p.vdd)
    exact (h1.add ((hd.sub_const p.vdd).const_mul (pos p.betaVddD))).add ((((h0.sub h1).add_const _).div_const (p.vdd ^ 2)).mul h2)
  by_cases hv : p.vdd < vds
  · refine ⟨max p.betaVddD 0, p.betaVddB, ?_, ?_⟩
    · unfold P4.beta0At P4.gain
      simp only [if_pos hv]
      rw [show pos (p.vdd - vds) = 0 from max_eq_right (by linarith)]
      unfold pos
      ring_nf
    · intro d b d' b' t hdt hbt hd hb
      refine (hpath d b d' b' t hd hb).congr_deriv ?_
      rw [hdt, show pos (p.vdd - vds) = 0 from max_eq_right (by linarith)]
      unfold pos; ring
  · have h0 : p.vdd ≠ 0 := h.resolve_right hv
    have hp : pos (p.vdd - vds) = p.vdd - vds := max_eq_left (by linarith [not_lt.1 hv])
    refine ⟨2 * ((-(p.betaVdd + p.betaVddB * vbs) + (p.betaZero + p.betaZeroB * vbs) + max p.betaVddD 0 * p.vdd) / (p.vdd * p.vdd)) * vds +
        (2 * ((p.betaVdd + p.betaVddB * vbs) - (p.betaZero + p.betaZeroB * vbs)) / p.vdd - max p.betaVddD 0),
      (p.betaZeroB - p.betaVddB) / (p.vdd * p.vdd) * vds * vds + (p.betaZeroB - p.betaVddB) / (p.vdd * p.vdd) * (-2) * p.vdd * vds + p.betaZeroB, ?_, ?_⟩
    · unfold P4.beta0At
      simp only [if_neg hv, if_neg h0]
      rw [show p.gain vds vbs = (((-(p.betaVdd + p.betaVddB * vbs) + (p.betaZero + p.betaZeroB * vbs) + max p.betaVddD 0 * p.vdd) / (p.vdd * p.vdd)) * vds +
        (2 * ((p.betaVdd + p.betaVddB * vbs) - (p.betaZero + p.betaZeroB * vbs)) / p.vdd - max p.betaVddD 0)) * vds + (p.betaZero + p.betaZeroB * vbs) by
          unfold P4.gain
          rw [hp]
          unfold pos
          field_simp
          ring]
    · intro d b d' b' t hdt hbt hd hb
      refine (hpath d b d' b' t hd hb).congr_deriv ?_
      rw [hdt, hbt, hp]
      unfold pos
      field_simp
      ring

/-! ## Above threshold -/

theorem sat_numbers {u a U : ℝ} (ha : 0 < a) (hU : 0 ≤ U) (hu : 0 ≤ u) :
    let w := Real.sqrt (1 + 2 * U * u / a)
    (if U * u / a < 0 then 0 else U * u / a) = (w ^ 2 - 1) / 2 ∧ Real.sqrt (1 + 2 * ((w ^ 2 - 1) / 2)) = w ∧
      1 / 2 * (1 + (w ^ 2 - 1) / 2 + w) = ((1 + w) / 2) ^ 2 ∧ max (u / (a * Real.sqrt (((1 + w) / 2) ^ 2))) 0 = top u a U := by
  intro w
  obtain ⟨h1, h2, h3, h4⟩ := top_root ha hU hu
  have hw : Real.sqrt (1 + 2 * U * u / a) = w := rfl
  rw [hw] at h1 h2 h3 h4
  have h0 : 0 ≤ U * u / a := by positivity
  have e1 : U * u / a = (w ^ 2 - 1) / 2 := by rw [h2]; ring
  refine ⟨by rw [if_neg (not_lt.2 h0), e1], ?_, by ring, ?_⟩
  · rw [show 1 + 2 * ((w ^ 2 - 1) / 2) = w ^ 2 by ring]; exact Real.sqrt_sq (by linarith)
  · rw [Real.sqrt_sq (by linarith), max_eq_left (by positivity)]
    unfold top
    rw [hw]
    have : 1 + w ≠ 0 := by linarith
    field_simp

/-- above threshold: the current and, along a path, its slopes -/
theorem strong4 (p : P4) (u vds vbs : ℝ) (h : p.Ok vbs) (hv : 0 ≤ vds) (hdd : p.vdd ≠ 0 ∨ p.vdd < vds) :
    ∃ s, p.strongAt u vds vbs = some s ∧ s.ids = p.strong u vds vbs ∧
      (0 < u → s.vdsat = top u (p.A vbs) (p.U1 vds vbs)) ∧
      ∀ (g d b : ℝ → ℝ) (g' d' b' t : ℝ), HasDerivAt g g' t → HasDerivAt d d' t → HasDerivAt b b' t → d t = vds → b t = vbs →
        u = g t - p.vth vds vbs → (u ≠ 0 ∨ 0 < vds) →
        ((p.feedback vds vbs ≠ 0 ∧ p.feedback vds vbs ≠ 1) ∨ (p.etaB = 0 ∧ p.etaD = 0)) →
        (p.ugs + p.ugsB * vbs ≠ 0 ∨ p.ugsB = 0) → (p.drag vds vbs ≠ 0 ∨ (p.udsB = 0 ∧ p.udsD = 0)) →
        HasDerivAt (fun y => p.strong (g y - p.vth (d y) (b y)) (d y) (b y)) (s.gm * g' + s.gds * d' + s.gmb * b') t := by
  obtain ⟨D, B, hbeta, hgain⟩ := gain4 p vds vbs hdd
  obtain ⟨hA, hA1, hA'⟩ := A4 p h
  have hU0 := ugs4 p vbs
  have hU1 := uds4 p (vbs := vbs) vds
  have hA0 : 0 < p.A vbs := by linarith
  have hU1n : 0 ≤ p.U1 vds vbs := div_nonneg (le_max_right _ _) h.len.le
  have hU0n : 0 ≤ p.U0 vbs := le_max_right _ _
  -- slopes of the law
  have hlaw : ∀ (g d b : ℝ → ℝ) (g' d' b' t : ℝ), HasDerivAt g g' t → HasDerivAt d d' t → HasDerivAt b b' t → d t = vds → b t = vbs →
        u = g t - p.vth vds vbs → (u ≠ 0 ∨ 0 < vds) →
        ((p.feedback vds vbs ≠ 0 ∧ p.feedback vds vbs ≠ 1) ∨ (p.etaB = 0 ∧ p.etaD = 0)) →
        (p.ugs + p.ugsB * vbs ≠ 0 ∨ p.ugsB = 0) → (p.drag vds vbs ≠ 0 ∨ (p.udsB = 0 ∧ p.udsD = 0)) → 1 + p.U0 vbs * u ≠ 0 →
        HasDerivAt (fun y => p.strong (g y - p.vth (d y) (b y)) (d y) (b y))
          (((D * d' + B * b') / (1 + p.U0 vbs * u) - p.gain vds vbs * ((p.ugsAt vbs).2 * b' * u + p.U0 vbs * (g' - ((p.vonAt vds vbs).2.1 * d' + (p.vonAt vds vbs).2.2 * b')))
              / (1 + p.U0 vbs * u) ^ 2) * drain u (p.A vbs) (p.U1 vds vbs) vds +
            p.gain vds vbs / (1 + p.U0 vbs * u) * (if u ≤ 0 then 0 else
              (min vds (top u (p.A vbs) (p.U1 vds vbs)) * (g' - ((p.vonAt vds vbs).2.1 * d' + (p.vonAt vds vbs).2.2 * b')) -
                min vds (top u (p.A vbs) (p.U1 vds vbs)) ^ 2 / 2 * ((p.aAt vbs).2 * b') -
                tri u (p.A vbs) (p.U1 vds vbs) (min vds (top u (p.A vbs) (p.U1 vds vbs))) * min vds (top u (p.A vbs) (p.U1 vds vbs)) *
                  ((p.udsAt vds vbs).2.1 * d' + (p.udsAt vds vbs).2.2 * b')) / (1 + p.U1 vds vbs * min vds (top u (p.A vbs) (p.U1 vds vbs))) +
              triD u (p.A vbs) (p.U1 vds vbs) (min vds (top u (p.A vbs) (p.U1 vds vbs))) * d')) t := by
    intro g d b g' d' b' t hg hd hb hdt hbt hu hne he hk0 hk1 hn0
    subst hdt hbt
    have hth := von_path p d b d' b' t hd hb h he
    have hu' : HasDerivAt (fun y => g y - p.vth (d y) (b y)) _ t := hg.sub hth
    have h0 := ugs_path p b b' t hb hk0
    have h1 := uds_path p d b d' b' t hd hb hk1
    have hAp : HasDerivAt (fun y => p.A (b y)) ((p.aAt (b t)).2 * b') t := hA'.comp t hb
    have hgn := hgain d b d' b' t rfl rfl hd hb
    have hdr := drain_path _ _ _ d _ _ _ d' t hu' hAp h1 hd hA0 hU1n hv (by rw [← hu]; exact hne)
    have hden : HasDerivAt (fun y => 1 + p.U0 (b y) * (g y - p.vth (d y) (b y))) _ t := (h0.mul hu').const_add 1
    simp only [← hu] at hdr
    have hn' : 1 + p.U0 (b t) * (g t - p.vth (d t) (b t)) ≠ 0 := by rw [← hu]; exact hn0
    have := (hgn.div hden hn').mul hdr
    refine this.congr_deriv ?_
    simp only [Pi.div_apply, ← hu]
    generalize 1 + p.U0 (b t) * u = m at *
    congr 1
    congr 1
    field_simp
  rcases lt_or_ge u 0 with hneg | hu0
  · refine ⟨⟨0, 0, 0, 0, 0⟩, by unfold P4.strongAt; rw [if_pos hneg], by simp [P4.strong, drain, hneg.le], fun h' => absurd h' (not_lt.2 hneg.le), ?_⟩
    intro g d b g' d' b' t hg hd hb hdt hbt hu hne he hk0 hk1
    have hth : HasDerivAt (fun y => g y - p.vth (d y) (b y)) _ t := hg.sub (von_path p d b d' b' t hd hb (hbt ▸ h) (by rw [hdt, hbt]; exact he))
    have hev : ∀ᶠ y in nhds t, g y - p.vth (d y) (b y) < 0 := hth.continuousAt.eventually (gt_mem_nhds (by simp only [hdt, hbt, ← hu]; exact hneg))
    refine ((hasDerivAt_const t (0 : ℝ)).congr_of_eventuallyEq ?_).congr_deriv (by simp)
    filter_upwards [hev] with y hy
    simp [P4.strong, drain, hy.le]
  · have hm : 0 < 1 + p.U0 vbs * u := by positivity
    have hmax : max (1 + p.U0 vbs * u) 1 = 1 + p.U0 vbs * u := max_eq_left (by nlinarith [mul_nonneg hU0n hu0])
    obtain ⟨n1, n2, n3, n4⟩ := sat_numbers hA0 hU1n hu0
    obtain ⟨r1, r2, r3, r4⟩ := top_root hA0 hU1n hu0
    have hst : p.strongAt u vds vbs = p.strongAt u vds vbs := rfl
    conv_rhs at hst =>
      unfold P4.strongAt
      rw [if_neg (not_lt.2 hu0), hbeta]
      simp only [hA, hU0, hU1, hmax, n1, n2, n3, n4]
    generalize Real.sqrt (1 + 2 * p.U1 vds vbs * u / p.A vbs) = w at *
    have hy0 := top_nonneg (U := p.U1 vds vbs) hA0 hu0
    by_cases htri : vds < top u (p.A vbs) (p.U1 vds vbs)
    · have hup : 0 < u := by
        rcases hu0.lt_or_eq with h' | h'
        · exact h'
        · exfalso; rw [← h'] at htri; simp [top] at htri; linarith
      rw [if_pos htri] at hst
      have hmin : min vds (top u (p.A vbs) (p.U1 vds vbs)) = vds := min_eq_left htri.le
      have hmx : max (1 + p.U1 vds vbs * vds) 1 = 1 + p.U1 vds vbs * vds := max_eq_left (by nlinarith [mul_nonneg hU1n hv])
      rw [hmx] at hst
      have hm1 : 0 < 1 + p.U1 vds vbs * vds := by positivity
      refine ⟨_, hst, ?_, fun _ => rfl, ?_⟩
      · simp only [P4.strong, drain, if_neg (not_le.2 hup), hmin, tri]
        ring
      · intro g d b g' d' b' t hg hd hb hdt hbt hu hne he hk0 hk1
        refine (hlaw g d b g' d' b' t hg hd hb hdt hbt hu hne he hk0 hk1 hm.ne').congr_deriv ?_
        rw [hmin]
        simp only [drain, if_neg (not_le.2 hup), hmin, tri, triD]
        clear hlaw hst hgain hA' n1 n2 n3 n4 r1 r2 r3 r4 hmin hmx hmax
        generalize 1 + p.U0 vbs * u = m at *
        generalize hq : 1 + p.U1 vds vbs * vds = m1 at *
        generalize p.U1 vds vbs = U at *
        generalize p.A vbs = A at *
        generalize (p.ugsAt vbs).2 = x1 at *
        generalize (p.udsAt vds vbs).2.1 = x2 at *
        generalize (p.udsAt vds vbs).2.2 = x3 at *
        generalize (p.vonAt vds vbs).2.1 = x4 at *
        generalize (p.vonAt vds vbs).2.2 = x5 at *
        generalize (p.aAt vbs).2 = x6 at *
        generalize p.gain vds vbs = G at *
        generalize p.U0 vbs = U0 at *
        have hUv : U * vds = m1 - 1 := by linarith
        field_simp
        rw [← hq]
        ring
    · have hmin : min vds (top u (p.A vbs) (p.U1 vds vbs)) = top u (p.A vbs) (p.U1 vds vbs) := min_eq_right (not_lt.1 htri)
      rw [if_neg htri] at hst
      rcases hu0.eq_or_lt with h' | hup
      · have ht0 : top u (p.A vbs) (p.U1 vds vbs) = 0 := by rw [← h']; simp [top]
        refine ⟨_, hst, by simp [P4.strong, drain, ← h'], fun h'' => absurd h'' (by rw [← h']; exact lt_irrefl _), ?_⟩
        intro g d b g' d' b' t hg hd hb hdt hbt hu hne he hk0 hk1
        refine (hlaw g d b g' d' b' t hg hd hb hdt hbt hu hne he hk0 hk1 hm.ne').congr_deriv ?_
        rw [if_pos h'.symm.le, drain, if_pos h'.symm.le]
        simp only [← h']
        simp
      · have hyp := top_pos (U := p.U1 vds vbs) hA0 hup
        refine ⟨_, hst, ?_, fun _ => rfl, ?_⟩
        · simp only [P4.strong, drain, if_neg (not_le.2 hup), hmin, tri]
          have hw1 : 0 < 1 + w := by linarith
          have hw0 : 0 < w := by linarith
          rw [r3]
          generalize top u (p.A vbs) (p.U1 vds vbs) = y at *
          generalize 1 + p.U0 vbs * u = m at *
          rw [show u = p.A vbs * (1 + w) * y / 2 by linarith]
          field_simp
          ring
        · intro g d b g' d' b' t hg hd hb hdt hbt hu hne he hk0 hk1
          refine (hlaw g d b g' d' b' t hg hd hb hdt hbt hu hne he hk0 hk1 hm.ne').congr_deriv ?_
          rw [hmin]
          simp only [drain, if_neg (not_le.2 hup), hmin, tri, triD]
          clear hlaw hst hgain hA' n1 n2 n3 n4 hmin hmax
          have hw0 : 0 < w := by linarith
          have hw1 : 0 < 1 + w := by linarith
          generalize top u (p.A vbs) (p.U1 vds vbs) = y at *
          have hU : p.U1 vds vbs = (w - 1) / y := by rw [eq_div_iff hyp.ne']; linarith
          rw [r3]
          have k1 : u / p.A vbs / ((1 + w) / 2) ^ 2 = 2 * y / (1 + w) := by
            rw [show u = p.A vbs * (1 + w) * y / 2 by linarith]; field_simp
          have k2 : 2 * y / (1 + w) * u = p.A vbs * y ^ 2 := by
            rw [show u = p.A vbs * (1 + w) * y / 2 by linarith]; field_simp
          have k3 : (u - p.A vbs * y / 2) * y / w = p.A vbs * y ^ 2 / 2 := by
            rw [show u = p.A vbs * (1 + w) * y / 2 by linarith]; field_simp; ring
          have k4 : u - p.A vbs * y - p.A vbs * p.U1 vds vbs * y ^ 2 / 2 = 0 := by
            rw [show u = p.A vbs * (1 + w) * y / 2 by linarith, hU]; field_simp; ring
          rw [k1, k2, k3, k4]
          generalize 1 + p.U0 vbs * u = m at *
          generalize (p.ugsAt vbs).2 = x1 at *
          generalize (p.udsAt vds vbs).2.1 = x2 at *
          generalize (p.udsAt vds vbs).2.2 = x3 at *
          generalize (p.vonAt vds vbs).2.1 = x4 at *
          generalize (p.vonAt vds vbs).2.2 = x5 at *
          generalize (p.aAt vbs).2 = x6 at *
          generalize p.gain vds vbs = G at *
          generalize p.U0 vbs = U0 at *
          have hu2 : u = p.A vbs * (1 + w) * y / 2 := by linarith
          generalize p.A vbs = A at *
          generalize p.U1 vds vbs = U at *
          rw [hU, hu2]
          clear k1 k2 k3 k4 hu2 hU r1 r2 r3 r4
          field_simp
          ring

/-! ## Below threshold -/

/-- the slope of weak inversion with the drain voltage -/
noncomputable def P4.weakD (p : P4) (u vds vbs thD : ℝ) : ℝ :=
  let L := 4.5 * p.vt ^ 2 * p.betaZero
  let X := 6.04965 * p.vt ^ 2 * p.betaZero * Real.exp (u / (p.N vds vbs * p.vt))
  (L / (L + X * (1 - Real.exp (-vds / p.vt)))) ^ 2 *
    (X * Real.exp (-vds / p.vt) / p.vt - X * (1 - Real.exp (-vds / p.vt)) * (thD + u * p.nD / p.N vds vbs) / (p.N vds vbs * p.vt))

theorem N_eq (p : P4) (vds vbs : ℝ) :
    (if p.n0 + p.nB * vbs + p.nD * vds < 1 / 2 then 1 / 2 else p.n0 + p.nB * vbs + p.nD * vds) = p.N vds vbs := by
  unfold P4.N P4.slope
  split
  · rw [max_eq_right (by linarith)]
  · rw [max_eq_left (by linarith)]

theorem N_path (p : P4) (d b : ℝ → ℝ) (d' b' t : ℝ) (hd : HasDerivAt d d' t) (hb : HasDerivAt b b' t)
    (h : 1 / 2 < p.slope (d t) (b t) ∨ (p.nB = 0 ∧ p.nD = 0)) :
    HasDerivAt (fun y => p.N (d y) (b y)) (p.nB * b' + p.nD * d') t := by
  have hs : HasDerivAt (fun y => p.slope (d y) (b y)) (p.nB * b' + p.nD * d') t := by
    unfold P4.slope
    exact ((hb.const_mul p.nB).const_add p.n0).add (hd.const_mul p.nD)
  rcases h with h | ⟨h1, h2⟩
  · refine hs.congr_of_eventuallyEq ?_
    filter_upwards [hs.continuousAt.eventually (lt_mem_nhds h)] with y hy
    exact max_eq_left hy.le
  · rw [h1, h2]
    simp only [P4.N, P4.slope, h1, h2, zero_mul, add_zero]
    exact hasDerivAt_const _ _

theorem weak4 (p : P4) (u vds vbs : ℝ) (h : p.Ok vbs) (hv : 0 ≤ vds) (hn : p.n0 < 200) (hb0 : 0 < p.betaZero) :
    (p.weakAt u vds vbs).ids = p.weak u vds vbs ∧
      ∀ (g d b : ℝ → ℝ) (g' d' b' t : ℝ), HasDerivAt g g' t → HasDerivAt d d' t → HasDerivAt b b' t → d t = vds → b t = vbs →
        u = g t - p.vth vds vbs →
        ((p.feedback vds vbs ≠ 0 ∧ p.feedback vds vbs ≠ 1) ∨ (p.etaB = 0 ∧ p.etaD = 0)) →
        (1 / 2 < p.slope vds vbs ∨ (p.nB = 0 ∧ p.nD = 0)) →
        HasDerivAt (fun y => p.weak (g y - p.vth (d y) (b y)) (d y) (b y))
          ((p.weakAt u vds vbs).gm * g' + p.weakD u vds vbs (p.vonAt vds vbs).2.1 * d' + (p.weakAt u vds vbs).gmb * b') t := by
  have hvt := h.vt
  have hN : 0 < p.N vds vbs := lt_of_lt_of_le (by norm_num) (le_max_right _ _)
  have hE : Real.exp (-vds / p.vt) ≤ 1 := Real.exp_le_one_iff.2 (div_nonpos_of_nonpos_of_nonneg (by linarith) hvt.le)
  constructor
  · unfold P4.weakAt P4.weak both
    rw [if_pos hn]
    simp only [N_eq]
    norm_num [pow_two]
  · intro g d b g' d' b' t hg hd hb hdt hbt hu he hsl
    subst hdt hbt
    have hth := von_path p d b d' b' t hd hb h he
    have hu' : HasDerivAt (fun y => g y - p.vth (d y) (b y)) _ t := hg.sub hth
    have hNp := N_path p d b d' b' t hd hb hsl
    have hnv : HasDerivAt (fun y => p.N (d y) (b y) * p.vt) _ t := hNp.mul_const p.vt
    have hx : HasDerivAt (fun y => Real.exp ((g y - p.vth (d y) (b y)) / (p.N (d y) (b y) * p.vt))) _ t :=
      (hu'.div hnv (mul_pos hN hvt).ne').exp
    have hw : HasDerivAt (fun y => 1 - Real.exp (-d y / p.vt)) _ t := ((hd.neg.div_const p.vt).exp).const_sub 1
    have hX : HasDerivAt (fun y => 6.04965 * p.vt ^ 2 * p.betaZero * Real.exp ((g y - p.vth (d y) (b y)) / (p.N (d y) (b y) * p.vt))
        * (1 - Real.exp (-d y / p.vt))) _ t := (hx.const_mul (6.04965 * p.vt ^ 2 * p.betaZero)).mul hw
    have hL : 0 < 4.5 * p.vt ^ 2 * p.betaZero := by positivity
    have hX0 : 0 ≤ 6.04965 * p.vt ^ 2 * p.betaZero * Real.exp ((g t - p.vth (d t) (b t)) / (p.N (d t) (b t) * p.vt)) * (1 - Real.exp (-d t / p.vt)) := by
      have : 0 ≤ 1 - Real.exp (-d t / p.vt) := by linarith
      positivity
    have hall : HasDerivAt (fun y => p.weak (g y - p.vth (d y) (b y)) (d y) (b y)) _ t :=
      (hX.const_mul (4.5 * p.vt ^ 2 * p.betaZero)).div (hX.const_add (4.5 * p.vt ^ 2 * p.betaZero)) (by linarith)
    refine hall.congr_deriv ?_
    unfold P4.weakAt P4.weakD
    rw [if_pos hn]
    simp only [N_eq, Pi.div_apply, Pi.mul_apply, ← hu]
    rw [← hu] at hX0
    rw [show (45 / 10 * (p.vt * p.vt) * p.betaZero : ℝ) = 4.5 * p.vt ^ 2 * p.betaZero by norm_num [pow_two],
      show (604965 / 100000 * (p.vt * p.vt) * p.betaZero : ℝ) = 6.04965 * p.vt ^ 2 * p.betaZero by norm_num [pow_two]]
    generalize Real.exp (u / (p.N (d t) (b t) * p.vt)) = E1 at *
    generalize Real.exp (-d t / p.vt) = E2 at *
    generalize (4.5 * p.vt ^ 2 * p.betaZero : ℝ) = L at *
    generalize (6.04965 * p.vt ^ 2 * p.betaZero : ℝ) = W at *
    have hs : L + W * E1 * (1 - E2) ≠ 0 := by linarith
    generalize hS : L + W * E1 * (1 - E2) = S at *
    generalize p.N (d t) (b t) = N at *
    generalize (p.vonAt (d t) (b t)).2.1 = x4 at *
    generalize (p.vonAt (d t) (b t)).2.2 = x5 at *
    generalize p.vt = V at *
    clear hall hX hw hx hnv hNp hu' hth
    field_simp
    rw [← hS]
    ring

/-! ## The current and its slopes -/

theorem floor0_pos (x : ℝ) : floor0 x = pos x := by
  unfold floor0 pos
  split
  · rw [max_eq_right (by linarith)]
  · rw [max_eq_left (by linarith)]

theorem eval4 (p : P4) {vgs vds vbs : ℝ} (h : p.Ok vbs) {s : Amp4} (hs : p.strongAt (vgs - p.vth vds vbs) vds vbs = some s) :
    p.eval vgs vds vbs = some
      { ids := pos (s.ids + (p.weakAt (vgs - p.vth vds vbs) vds vbs).ids), gds := pos (s.gds + (p.weakAt (vgs - p.vth vds vbs) vds vbs).gds),
        gm := pos (s.gm + (p.weakAt (vgs - p.vth vds vbs) vds vbs).gm), gmb := pos (s.gmb + (p.weakAt (vgs - p.vth vds vbs) vds vbs).gmb),
        von := p.vth vds vbs, vgst := vgs - p.vth vds vbs, vdsat := s.vdsat } := by
  unfold P4.eval
  simp only [von4 p h, hs, floor0_pos]

/-- **C91, current.**  At every voltage the current is that of the law, or none where the law is negative; threshold and saturation
voltage are those of the law. -/
theorem level4_current (p : P4) (vgs vds vbs : ℝ) (h : p.Ok vbs) (hv : 0 ≤ vds) (hdd : p.vdd ≠ 0 ∨ p.vdd < vds)
    (hb : p.n0 < 200 → 0 < p.betaZero) :
    ∃ o, p.eval vgs vds vbs = some o ∧ o.ids = pos (p.I vgs vds vbs) ∧ o.von = p.vth vds vbs ∧
      (p.vth vds vbs < vgs → o.vdsat = top (vgs - p.vth vds vbs) (p.A vbs) (p.U1 vds vbs)) := by
  obtain ⟨s, hs, hi, hsat, _⟩ := strong4 p (vgs - p.vth vds vbs) vds vbs h hv hdd
  refine ⟨_, eval4 p h hs, ?_, rfl, fun hu => hsat (by linarith)⟩
  simp only [hi, P4.I]
  by_cases hn : p.n0 < 200
  · rw [(weak4 p _ vds vbs h hv hn (hb hn)).1, if_pos hn]
  · rw [if_neg hn]; unfold P4.weakAt; rw [if_neg hn]

/-- what a bend asks of voltages: not to be at one, or that nothing depends on them there -/
structure P4.Smooth (p : P4) (vgs vds vbs : ℝ) : Prop where
  onset : vgs ≠ p.vth vds vbs ∨ 0 < vds
  feedback : (p.feedback vds vbs ≠ 0 ∧ p.feedback vds vbs ≠ 1) ∨ (p.etaB = 0 ∧ p.etaD = 0)
  gate : p.ugs + p.ugsB * vbs ≠ 0 ∨ p.ugsB = 0
  drag : p.drag vds vbs ≠ 0 ∨ (p.udsB = 0 ∧ p.udsD = 0)
  slope : 1 / 2 < p.slope vds vbs ∨ (p.nB = 0 ∧ p.nD = 0)

/-- **C91, slopes.**  Along all smooth paths of voltages the current of the law changes with three slopes; that with the gate voltage
and that with the bulk voltage are reported, where they are not negative, and that with the drain voltage is too where there is no weak
inversion.  With weak inversion it is `level4_gds_low`. -/
theorem level4_slopes (p : P4) (vgs vds vbs : ℝ) (h : p.Ok vbs) (hv : 0 ≤ vds) (hdd : p.vdd ≠ 0 ∨ p.vdd < vds)
    (hb0 : p.n0 < 200 → 0 < p.betaZero) (hsm : p.Smooth vgs vds vbs) :
    ∃ o G D B, p.eval vgs vds vbs = some o ∧ o.gm = pos G ∧ o.gmb = pos B ∧ (200 ≤ p.n0 → o.gds = pos D) ∧
      (p.n0 < 200 → o.gds = pos (D - p.weakD (vgs - p.vth vds vbs) vds vbs (p.vonAt vds vbs).2.1 + (p.weakAt (vgs - p.vth vds vbs) vds vbs).gds)) ∧
      ∀ (g d b : ℝ → ℝ) (g' d' b' t : ℝ), HasDerivAt g g' t → HasDerivAt d d' t → HasDerivAt b b' t →
        g t = vgs → d t = vds → b t = vbs → HasDerivAt (fun y => p.I (g y) (d y) (b y)) (G * g' + D * d' + B * b') t := by
  obtain ⟨s, hs, hi, hsat, hp⟩ := strong4 p (vgs - p.vth vds vbs) vds vbs h hv hdd
  have hne : vgs - p.vth vds vbs ≠ 0 ∨ 0 < vds := hsm.onset.imp sub_ne_zero.2 id
  by_cases hn : p.n0 < 200
  · obtain ⟨_, hw⟩ := weak4 p (vgs - p.vth vds vbs) vds vbs h hv hn (hb0 hn)
    refine ⟨_, s.gm + (p.weakAt (vgs - p.vth vds vbs) vds vbs).gm,
      s.gds + p.weakD (vgs - p.vth vds vbs) vds vbs (p.vonAt vds vbs).2.1,
      s.gmb + (p.weakAt (vgs - p.vth vds vbs) vds vbs).gmb, eval4 p h hs, rfl, rfl, fun h' => absurd hn (not_lt.2 h'), fun _ => ?_, ?_⟩
    · show pos _ = pos _
      congr 1; ring
    · intro g d b g' d' b' t hg hd hb hgt hdt hbt
      have e1 := hp g d b g' d' b' t hg hd hb hdt hbt (by rw [hgt]) hne hsm.feedback hsm.gate hsm.drag
      have e2 := hw g d b g' d' b' t hg hd hb hdt hbt (by rw [hgt]) hsm.feedback hsm.slope
      simp only [P4.I, if_pos hn]
      exact (e1.add e2).congr_deriv (by ring)
  · have w0 : p.weakAt (vgs - p.vth vds vbs) vds vbs = ⟨0, 0, 0, 0, 0⟩ := by unfold P4.weakAt; rw [if_neg hn]
    refine ⟨_, s.gm, s.gds, s.gmb, eval4 p h hs, by simp [w0], by simp [w0], fun _ => by simp [w0], fun h' => absurd h' hn, ?_⟩
    intro g d b g' d' b' t hg hd hb hgt hdt hbt
    simp only [P4.I, if_neg hn, add_zero]
    exact hp g d b g' d' b' t hg hd hb hdt hbt (by rw [hgt]) hne hsm.feedback hsm.gate hsm.drag

/-- **Violated** (d_mos4.model:362-369): with weak inversion, and feedback of the drain that is constant, the slope with the drain
voltage reported is less than that of the current whenever that is positive. -/
theorem level4_gds_low (p : P4) (vgs vds vbs : ℝ) (h : p.Ok vbs) (hv : 0 ≤ vds) (hdd : p.vdd ≠ 0 ∨ p.vdd < vds)
    (hn : p.n0 < 200) (hb0 : 0 < p.betaZero) (hsm : p.Smooth vgs vds vbs) (he : p.etaB = 0 ∧ p.etaD = 0) (hnd : p.nD = 0) :
    ∃ o D, p.eval vgs vds vbs = some o ∧ HasDerivAt (fun x => p.I vgs x vbs) D vds ∧ (0 < D → o.gds < D) := by
  obtain ⟨o, G, D, B, ho, _, _, _, hg, hp⟩ := level4_slopes p vgs vds vbs h hv hdd (fun _ => hb0) hsm
  refine ⟨o, D, ho, ?_, fun hD => ?_⟩
  · have := hp (fun _ => vgs) (fun x => x) (fun _ => vbs) 0 1 0 vds (hasDerivAt_const _ _) (hasDerivAt_id _) (hasDerivAt_const _ _) rfl rfl rfl
    exact this.congr_deriv (by ring)
  · rw [hg hn]
    have hth : (p.vonAt vds vbs).2.1 = -unit p.eta := by
      unfold P4.vonAt P4.etaAt unit
      simp only [he.1, he.2, zero_mul, add_zero]
      split
      · rename_i h0; rw [min_eq_left (by linarith), max_eq_left h0]; ring
      · split
        · rename_i h0 h1; rw [min_eq_right h1.le]; norm_num
        · rename_i h0 h1; rw [min_eq_left (not_lt.1 h1), max_eq_right (not_le.1 h0).le]; ring
    have hun : 0 ≤ unit p.eta := le_max_left _ _
    have hlt : (p.weakAt (vgs - p.vth vds vbs) vds vbs).gds < p.weakD (vgs - p.vth vds vbs) vds vbs (p.vonAt vds vbs).2.1 := by
      have hvt := h.vt
      have hN : 0 < p.N vds vbs := lt_of_lt_of_le (by norm_num) (le_max_right _ _)
      have hE : Real.exp (-vds / p.vt) ≤ 1 := Real.exp_le_one_iff.2 (div_nonpos_of_nonpos_of_nonneg (by linarith) hvt.le)
      have hE0 : 0 < Real.exp (-vds / p.vt) := Real.exp_pos _
      have hX0 : 0 < Real.exp ((vgs - p.vth vds vbs) / (p.N vds vbs * p.vt)) := Real.exp_pos _
      unfold P4.weakAt P4.weakD
      rw [if_pos hn]
      simp only [N_eq]
      simp only [hnd, hth]
      rw [show (45 / 10 * (p.vt * p.vt) * p.betaZero : ℝ) = 4.5 * p.vt ^ 2 * p.betaZero by norm_num [pow_two],
        show (604965 / 100000 * (p.vt * p.vt) * p.betaZero : ℝ) = 6.04965 * p.vt ^ 2 * p.betaZero by norm_num [pow_two]]
      have hL : 0 < 4.5 * p.vt ^ 2 * p.betaZero := by positivity
      have hW : 0 < 6.04965 * p.vt ^ 2 * p.betaZero := by positivity
      generalize Real.exp ((vgs - p.vth vds vbs) / (p.N vds vbs * p.vt)) = E1 at *
      generalize Real.exp (-vds / p.vt) = E2 at *
      generalize (4.5 * p.vt ^ 2 * p.betaZero : ℝ) = L at *
      generalize (6.04965 * p.vt ^ 2 * p.betaZero : ℝ) = W at *
      generalize p.N vds vbs = N at *
      generalize p.vt = V at *
      generalize unit p.eta = e at *
      have hX : 0 < W * E1 := mul_pos hW hX0
      rw [mul_comm E1 W, mul_assoc (L / (L + W * E1) * (L / (L + W * E1))) W E1]
      generalize W * E1 = X at *
      simp only [mul_zero, zero_div, add_zero]
      have a1 : L / (L + X) < L / (L + X * (1 - E2)) := by
        apply div_lt_div_of_pos_left hL
        · have : 0 ≤ X * (1 - E2) := mul_nonneg hX.le (by linarith)
          linarith
        · nlinarith
      have a2 : (L / (L + X)) ^ 2 < (L / (L + X * (1 - E2))) ^ 2 := pow_lt_pow_left₀ a1 (by positivity) (by norm_num)
      have a3 : 0 < X * E2 / V := by positivity
      have a4 : 0 ≤ X * (1 - E2) * e / (N * V) := div_nonneg (mul_nonneg (mul_nonneg hX.le (by linarith)) hun) (by positivity)
      have a5 : 0 ≤ (L / (L + X)) ^ 2 * (X * (1 - E2) * e / (N * V)) := mul_nonneg (sq_nonneg _) a4
      have a6 : 0 ≤ (L / (L + X * (1 - E2))) ^ 2 * (X * (1 - E2) * e / (N * V)) := mul_nonneg (sq_nonneg _) a4
      have a7 := mul_lt_mul_of_pos_right a2 a3
      calc _ = (L / (L + X)) ^ 2 * (X * E2 / V) - (L / (L + X)) ^ 2 * (X * (1 - E2) * e / (N * V)) := by ring
        _ < (L / (L + X * (1 - E2))) ^ 2 * (X * E2 / V) + (L / (L + X * (1 - E2))) ^ 2 * (X * (1 - E2) * e / (N * V)) := by linarith
        _ = _ := by ring
    by_cases h0 : 0 ≤ D - p.weakD (vgs - p.vth vds vbs) vds vbs (p.vonAt vds vbs).2.1 + (p.weakAt (vgs - p.vth vds vbs) vds vbs).gds
    · unfold pos; rw [max_eq_left h0]; linarith
    · unfold pos; rw [max_eq_right (not_le.1 h0).le]; exact hD

/-- the same below threshold, where the slope is positive -/
theorem level4_gds_wrong (p : P4) (vgs vds vbs : ℝ) (h : p.Ok vbs) (hv : 0 ≤ vds) (hdd : p.vdd ≠ 0 ∨ p.vdd < vds)
    (hn : p.n0 < 200) (hb0 : 0 < p.betaZero) (hsm : p.Smooth vgs vds vbs) (he : p.etaB = 0 ∧ p.etaD = 0) (hnd : p.nD = 0)
    (hu : vgs < p.vth vds vbs) :
    ∃ o D, p.eval vgs vds vbs = some o ∧ HasDerivAt (fun x => p.I vgs x vbs) D vds ∧ o.gds < D := by
  obtain ⟨o, D, ho, hD, hlt⟩ := level4_gds_low p vgs vds vbs h hv hdd hn hb0 hsm he hnd
  refine ⟨o, D, ho, hD, hlt ?_⟩
  obtain ⟨_, hw⟩ := weak4 p (vgs - p.vth vds vbs) vds vbs h hv hn hb0
  have e2 := hw (fun _ => vgs) (fun x => x) (fun _ => vbs) 0 1 0 vds (hasDerivAt_const _ _) (hasDerivAt_id _) (hasDerivAt_const _ _) rfl rfl rfl
    hsm.feedback hsm.slope
  have hvth : HasDerivAt (fun x => p.vth x vbs) _ vds :=
    von_path p (fun x => x) (fun _ => vbs) 1 0 vds (hasDerivAt_id _) (hasDerivAt_const _ _) h hsm.feedback
  have e3 : HasDerivAt (fun x => p.I vgs x vbs) _ vds := e2.congr_of_eventuallyEq (by
    filter_upwards [hvth.continuousAt.eventually (lt_mem_nhds hu)] with x hx
    simp only [P4.I, if_pos hn]
    rw [show p.strong (vgs - p.vth x vbs) x vbs = 0 by unfold P4.strong drain; rw [if_pos (by linarith), mul_zero], zero_add])
  rw [hD.unique e3]
  simp only [mul_zero, mul_one, zero_add, add_zero]
  have hth : (p.vonAt vds vbs).2.1 ≤ 0 := by
    unfold P4.vonAt P4.etaAt
    simp only [he.1, he.2, zero_mul, add_zero]
    split
    · simp
    · rename_i h0
      split
      · simp
      · simp only [zero_mul, sub_zero]; linarith
  have hvt := h.vt
  have hN : 0 < p.N vds vbs := lt_of_lt_of_le (by norm_num) (le_max_right _ _)
  have hE : Real.exp (-vds / p.vt) ≤ 1 := Real.exp_le_one_iff.2 (div_nonpos_of_nonpos_of_nonneg (by linarith) hvt.le)
  have hX0 : 0 < Real.exp ((vgs - p.vth vds vbs) / (p.N vds vbs * p.vt)) := Real.exp_pos _
  have hE0 : 0 < Real.exp (-vds / p.vt) := Real.exp_pos _
  unfold P4.weakD
  simp only [hnd, mul_zero, zero_div, add_zero]
  have hX : 0 < 6.04965 * p.vt ^ 2 * p.betaZero * Real.exp ((vgs - p.vth vds vbs) / (p.N vds vbs * p.vt)) := by positivity
  have hL : 0 < 4.5 * p.vt ^ 2 * p.betaZero := by positivity
  generalize 6.04965 * p.vt ^ 2 * p.betaZero * Real.exp ((vgs - p.vth vds vbs) / (p.N vds vbs * p.vt)) = X at *
  generalize 4.5 * p.vt ^ 2 * p.betaZero = L at *
  generalize Real.exp (-vds / p.vt) = E2 at *
  have q : 0 ≤ X * (1 - E2) := mul_nonneg hX.le (by linarith)
  apply mul_pos
  · have : 0 < L / (L + X * (1 - E2)) := div_pos hL (by linarith)
    positivity
  · have a3 : 0 < X * E2 / p.vt := by positivity
    have a4 : X * (1 - E2) * (p.vonAt vds vbs).2.1 / (p.N vds vbs * p.vt) ≤ 0 :=
      div_nonpos_of_nonpos_of_nonneg (mul_nonpos_of_nonneg_of_nonpos q hth) (by positivity)
    linarith

/-! ## The device -/

theorem I4_zero (p : P4) (vgs vbs : ℝ) (h : p.Ok vbs) : p.I vgs 0 vbs = 0 := by
  obtain ⟨_, hA1, _⟩ := A4 p h
  simp only [P4.I]
  have e1 : p.strong (vgs - p.vth 0 vbs) 0 vbs = 0 := by
    unfold P4.strong drain
    split
    · simp
    · rename_i hu
      rw [min_eq_left (top_nonneg (by linarith) (not_le.1 hu).le)]
      simp [tri]
  rw [e1]
  simp [P4.weak, both]

/-- current of the device from drain to source -/
noncomputable def P4.flow (p : P4) (pol : ℝ) (v : Nodes) : ℝ :=
  if 0 ≤ pol * (v.d - v.s) then pol * pos (p.I (pol * (v.g - v.s)) (pol * (v.d - v.s)) (pol * (v.b - v.s)))
  else -pol * pos (p.I (pol * (v.g - v.d)) (pol * (v.s - v.d)) (pol * (v.b - v.d)))

/-- with a supply voltage there always is a result -/
theorem eval4_some (p : P4) (hdd : p.vdd ≠ 0) (g d b : ℝ) : ∃ o, p.eval g d b = some o := by
  obtain ⟨B, hB⟩ : ∃ B, p.beta0At d b = some B := by
    unfold P4.beta0At
    simp only [if_neg hdd]
    split <;> exact ⟨_, rfl⟩
  obtain ⟨s, hs⟩ : ∃ s, p.strongAt (g - (p.vonAt d b).1) d b = some s := by
    unfold P4.strongAt
    rw [hB]
    simp only
    split
    · exact ⟨_, rfl⟩
    · repeat' split
      all_goals exact ⟨_, rfl⟩
  unfold P4.eval
  simp only [hs]
  exact ⟨_, rfl⟩

/-- **C91, from any state.**  Without feedback of the drain, with node voltages held, after finitely many iterations the current loaded
is, and stays, that of the law. -/
theorem level4_device (p : P4) (he : p.eta = 0 ∧ p.etaB = 0 ∧ p.etaD = 0) (hdd : p.vdd ≠ 0) (h : ∀ vbs ≤ 0, p.Ok vbs)
    (hb0 : p.n0 < 200 → 0 < p.betaZero) (c : Cfg) (hc : ∀ g d b, p.eval g d b = some (c.E g d b))
    (hp : c.pol = 1 ∨ c.pol = -1) (v : Nodes) (h1 : c.pol * (v.b - v.s) ≤ 0) (h2 : c.pol * (v.b - v.d) ≤ 0) (s : St) :
    ∃ N, ∀ n, N ≤ n → ((St.doTr c false v)^[n] s).iDS v = p.flow c.pol v := by
  obtain ⟨N, hN⟩ := settles c v (fun b => (p.vonAt 0 b).1) (by
    intro g d b
    have := hc g d b
    unfold P4.eval at this
    simp only at this
    split at this
    · cases this
    · rw [← (Option.some.inj this)]
      show (p.vonAt d b).1 = _
      unfold P4.vonAt P4.etaAt
      simp [he.1, he.2.1, he.2.2]) s
  refine ⟨N, fun n hn' => ?_⟩
  have hst := hN n hn'
  generalize (St.doTr c false v)^[n] s = st at hst
  have hB : effVbs c v st.reversed ≤ 0 := by
    unfold effVbs; split
    · exact h2
    · exact h1
  rw [settled_flow c v st hst hp, max_eq_right hB, mul_zero, add_zero, (settled_out c v st hst).2.1]
  obtain ⟨hd0, hd, hg, hb, _⟩ := hst
  rw [hd, hg, hb, min_eq_left hB]
  obtain ⟨o, ho, hi, _⟩ := level4_current p (effVgs c v st.reversed) (effVds c v st.reversed) (effVbs c v st.reversed) (h _ hB) hd0 (Or.inl hdd) hb0
  rw [hc] at ho
  rw [Option.some.inj ho, hi]
  unfold P4.flow
  cases hr : st.reversed
  · rw [hr] at hd0
    simp only [effVds, effVgs, effVbs, Bool.false_eq_true, if_false] at hd0 ⊢
    rw [if_pos hd0]; ring
  · rw [hr] at hd0
    simp only [effVds, effVgs, effVbs, if_true] at hd0 ⊢
    by_cases h' : 0 ≤ c.pol * (v.d - v.s)
    · have e0 : c.pol * (v.s - v.d) = 0 := by nlinarith
      have e1 : c.pol * (v.d - v.s) = 0 := by linarith
      rw [if_pos h', e0, e1, I4_zero p _ _ (h _ h2), I4_zero p _ _ (h _ h1)]
      simp [pos]
    · rw [if_neg h']; ring

/-! ## More that is wrong -/

/-- **Violated** (d_mos4.model:380-383): a slope that is negative is reported as none.  Below threshold, where `k2` outweighs the body
effect, the current falls with the bulk voltage and the slope is reported as zero. -/
theorem level4_gmb_wrong (p : P4) (vgs vds vbs : ℝ) (h : p.Ok vbs) (hv : 0 < vds) (hdd : p.vdd ≠ 0 ∨ p.vdd < vds)
    (hn : p.n0 < 200) (hb0 : 0 < p.betaZero) (hsm : p.Smooth vgs vds vbs) (hu : vgs < p.vth vds vbs) (heta : p.etaB = 0) (hnb : p.nB = 0)
    (hk : p.k1 < 2 * p.k2 * Real.sqrt (p.phi - vbs)) :
    ∃ o B, p.eval vgs vds vbs = some o ∧ HasDerivAt (fun x => p.I vgs vds x) B vbs ∧ B < 0 ∧ o.gmb = 0 := by
  obtain ⟨_, hw⟩ := weak4 p (vgs - p.vth vds vbs) vds vbs h hv.le hn hb0
  have hst : p.strongAt (vgs - p.vth vds vbs) vds vbs = some ⟨0, 0, 0, 0, 0⟩ := by
    unfold P4.strongAt; rw [if_pos (by linarith)]
  have hneg : (p.weakAt (vgs - p.vth vds vbs) vds vbs).gmb < 0 := by
    obtain ⟨hpb, hpb0⟩ := vpb4 p h
    have hs := Real.sqrt_pos.2 hpb0
    have hthB : 0 < (p.vonAt vds vbs).2.2 := by
      have : (p.vonAt vds vbs).2.2 = p.k2 - 1 / 2 * p.k1 / Real.sqrt (p.phi - vbs) := by
        unfold P4.vonAt P4.etaAt
        simp only [hpb, heta]
        split
        · simp
        · split <;> simp
      rw [this]
      have : 1 / 2 * p.k1 / Real.sqrt (p.phi - vbs) < p.k2 := by rw [div_lt_iff₀ hs]; linarith
      linarith
    have hvt := h.vt
    have hN : 0 < p.N vds vbs := lt_of_lt_of_le (by norm_num) (le_max_right _ _)
    have hE : Real.exp (-vds / p.vt) < 1 := by
      rw [← Real.exp_zero]; exact Real.exp_lt_exp.2 (div_neg_of_neg_of_pos (by linarith) hvt)
    have hX0 : 0 < Real.exp ((vgs - p.vth vds vbs) / (p.N vds vbs * p.vt)) := Real.exp_pos _
    unfold P4.weakAt
    rw [if_pos hn]
    simp only [N_eq]
    rw [hnb]
    have hd : 0 < 1 - Real.exp (-vds / p.vt) := by linarith
    simp only [mul_zero, zero_div, add_zero]
    have : 0 < 604965 / 100000 * (p.vt * p.vt) * p.betaZero * Real.exp ((vgs - p.vth vds vbs) / (p.N vds vbs * p.vt)) *
        (1 - Real.exp (-vds / p.vt)) := by positivity
    generalize 604965 / 100000 * (p.vt * p.vt) * p.betaZero * Real.exp ((vgs - p.vth vds vbs) / (p.N vds vbs * p.vt)) *
        (1 - Real.exp (-vds / p.vt)) = X at *
    have hL : 0 < 45 / 10 * (p.vt * p.vt) * p.betaZero := by positivity
    apply neg_neg_of_pos
    positivity
  refine ⟨_, _, eval4 p h hst, ?_, hneg, ?_⟩
  · have e2 := hw (fun _ => vgs) (fun _ => vds) (fun x => x) 0 0 1 vbs (hasDerivAt_const _ _) (hasDerivAt_const _ _) (hasDerivAt_id _) rfl rfl rfl
      hsm.feedback hsm.slope
    have hvth : HasDerivAt (fun x => p.vth vds x) _ vbs :=
      von_path p (fun _ => vds) (fun x => x) 0 1 vbs (hasDerivAt_const _ _) (hasDerivAt_id _) h hsm.feedback
    refine (e2.congr_of_eventuallyEq ?_).congr_deriv (by ring)
    filter_upwards [hvth.continuousAt.eventually (lt_mem_nhds hu)] with x hx
    simp only [P4.I, if_pos hn]
    rw [show p.strong (vgs - p.vth vds x) vds x = 0 by unfold P4.strong drain; rw [if_pos (by linarith), mul_zero], zero_add]
  · simp only [zero_add]
    exact max_eq_right hneg.le

/-- **Violated** (d_mos4.model:244-256): with `vdd` left at zero, at threshold or above and no drain voltage, zero is divided by zero:
the result is not a number. -/
theorem level4_nan (p : P4) (vgs vbs : ℝ) (h : p.Ok vbs) (h0 : p.vdd = 0) (hu : p.vth 0 vbs ≤ vgs) : p.eval vgs 0 vbs = none := by
  unfold P4.eval
  simp only [von4 p h]
  have : p.strongAt (vgs - p.vth 0 vbs) 0 vbs = none := by
    unfold P4.strongAt P4.beta0At
    rw [if_neg (by linarith)]
    simp [h0]
  rw [this]

/-! ## Cases -/

/-- a device for the examples: threshold 1 V, unit gain, no body effect -/
def demo4 (k2 ugs uds n0 vdd : ℝ) : P4 where
  phi := 1
  vfb := k2
  k1 := 0
  k2 := k2
  eta := 0
  etaB := 0
  etaD := 0
  ugs := ugs
  ugsB := 0
  uds := uds
  udsB := 0
  udsD := 0
  n0 := n0
  nB := 0
  nD := 0
  betaZero := 1
  betaZeroB := 0
  betaVdd := 1
  betaVddB := 0
  betaVddD := 0
  vdd := vdd
  leff := 1
  vt := 1

theorem demo4_ok (k2 ugs uds n0 vdd : ℝ) {vbs : ℝ} (h : vbs ≤ 0) : (demo4 k2 ugs uds n0 vdd).Ok vbs :=
  ⟨by norm_num [demo4], by norm_num [demo4], h, by norm_num [demo4], by norm_num [demo4]⟩

theorem demo4_smooth (k2 ugs uds n0 vdd vgs vds vbs : ℝ) (h : 0 < vds) : (demo4 k2 ugs uds n0 vdd).Smooth vgs vds vbs :=
  ⟨Or.inr h, Or.inr ⟨rfl, rfl⟩, Or.inr rfl, Or.inr ⟨rfl, rfl⟩, Or.inr ⟨rfl, rfl⟩⟩

theorem demo4_vth (ugs uds n0 vdd vds vbs : ℝ) : (demo4 0 ugs uds n0 vdd).vth vds vbs = 1 := by
  simp [demo4, P4.vth, P4.feedback, unit]

/-- 2 V above threshold with velocity saturation: a saturation voltage of 4/3 V and 8/9 A -/
example : ∃ o, (demo4 0 0 (3 / 4) 200 5).eval 3 2 0 = some o ∧ o.ids = 8 / 9 ∧ o.vdsat = 4 / 3 := by
  obtain ⟨o, h1, h2, _, h4⟩ := level4_current (demo4 0 0 (3 / 4) 200 5) 3 2 0 (demo4_ok _ _ _ _ _ le_rfl) (by norm_num) (by norm_num [demo4])
    (by norm_num [demo4])
  have hA : (demo4 0 0 (3 / 4) 200 5).A 0 = 1 := by norm_num [demo4, P4.A]
  have hU : (demo4 0 0 (3 / 4) 200 5).U1 2 0 = 3 / 4 := by norm_num [demo4, P4.U1, P4.drag, pos]
  have hw : Real.sqrt 4 = 2 := by rw [show (4 : ℝ) = 2 ^ 2 by norm_num]; exact Real.sqrt_sq (by norm_num)
  have ht : top 2 1 (3 / 4) = 4 / 3 := by
    unfold top; rw [show (1 : ℝ) + 2 * (3 / 4) * 2 / 1 = 4 by norm_num, hw]; norm_num
  rw [demo4_vth, hA, hU, show (3 : ℝ) - 1 = 2 by norm_num, ht] at h4
  refine ⟨o, h1, ?_, h4 (by norm_num)⟩
  rw [h2]
  have hg : (demo4 0 0 (3 / 4) 200 5).gain 2 0 = 1 := by norm_num [demo4, P4.gain, pos]
  have hU0 : (demo4 0 0 (3 / 4) 200 5).U0 0 = 0 := by norm_num [demo4, P4.U0, pos]
  have hn : (demo4 0 0 (3 / 4) 200 5).n0 = 200 := rfl
  simp only [P4.I, P4.strong, drain, demo4_vth, hA, hU, hg, hU0, hn]
  rw [show (3 : ℝ) - 1 = 2 by norm_num, ht]
  norm_num [tri, pos]

/-- the slopes of it -/
example : ∃ o G D B, (demo4 0 1 (3 / 4) 1 5).eval 3 2 (-1) = some o ∧ o.gm = pos G ∧ o.gmb = pos B ∧
    ∀ (g d b : ℝ → ℝ) (g' d' b' t : ℝ), HasDerivAt g g' t → HasDerivAt d d' t → HasDerivAt b b' t →
        g t = 3 → d t = 2 → b t = -1 → HasDerivAt (fun y => (demo4 0 1 (3 / 4) 1 5).I (g y) (d y) (b y)) (G * g' + D * d' + B * b') t := by
  obtain ⟨o, G, D, B, h1, h2, h3, _, _, h6⟩ := level4_slopes (demo4 0 1 (3 / 4) 1 5) 3 2 (-1) (demo4_ok _ _ _ _ _ (by norm_num)) (by norm_num)
    (by norm_num [demo4]) (fun _ => by norm_num [demo4]) (demo4_smooth _ _ _ _ _ _ _ _ (by norm_num))
  exact ⟨o, G, D, B, h1, h2, h3, h6⟩

/-- below threshold the slope with drain voltage is reported too low -/
example : ∃ o D, (demo4 0 1 (3 / 4) 1 5).eval 0 2 0 = some o ∧ HasDerivAt (fun x => (demo4 0 1 (3 / 4) 1 5).I 0 x 0) D 2 ∧ o.gds < D :=
  level4_gds_wrong _ 0 2 0 (demo4_ok _ _ _ _ _ le_rfl) (by norm_num) (by norm_num [demo4]) (by norm_num [demo4]) (by norm_num [demo4])
    (demo4_smooth _ _ _ _ _ _ _ _ (by norm_num)) ⟨rfl, rfl⟩ rfl (by rw [demo4_vth]; norm_num)

/-- `k2` above the body effect -/
example : ∃ o B, (demo4 1 0 0 1 5).eval 0 2 0 = some o ∧ HasDerivAt (fun x => (demo4 1 0 0 1 5).I 0 2 x) B 0 ∧ B < 0 ∧ o.gmb = 0 :=
  level4_gmb_wrong _ 0 2 0 (demo4_ok _ _ _ _ _ le_rfl) (by norm_num) (by norm_num [demo4]) (by norm_num [demo4]) (by norm_num [demo4])
    (demo4_smooth _ _ _ _ _ _ _ _ (by norm_num)) (by norm_num [demo4, P4.vth, P4.feedback, unit]) rfl rfl (by norm_num [demo4])

/-- a supply voltage left out -/
example : (demo4 0 0 0 1 0).eval 3 0 0 = none :=
  level4_nan _ 3 0 (demo4_ok _ _ _ _ _ le_rfl) rfl (by rw [demo4_vth]; norm_num)

/-- the device of the first example in a circuit, drain and source exchanged -/
example (s : St) : ∃ M, ∀ m, M ≤ m →
    ((St.doTr ⟨fun g d b => ((demo4 0 0 0 200 5).eval g d b).getD ⟨0, 0, 0, 0, 0, 0, 0, 0, 0, 0, 0⟩, 1, false, false, true⟩ false
      ⟨0, 3, 1, 0⟩)^[m] s).iDS ⟨0, 3, 1, 0⟩ = -(3 / 2) := by
  obtain ⟨N, hN⟩ := level4_device (demo4 0 0 0 200 5) ⟨rfl, rfl, rfl⟩ (by norm_num [demo4]) (fun _ h => demo4_ok _ _ _ _ _ h) (by norm_num [demo4])
    ⟨fun g d b => ((demo4 0 0 0 200 5).eval g d b).getD ⟨0, 0, 0, 0, 0, 0, 0, 0, 0, 0, 0⟩, 1, false, false, true⟩
    (by
      intro g d b
      obtain ⟨o, ho⟩ := eval4_some (demo4 0 0 0 200 5) (by norm_num [demo4]) g d b
      simp only [ho, Option.getD_some]) (Or.inl rfl) ⟨0, 3, 1, 0⟩ (by norm_num) (by norm_num) s
  refine ⟨N, fun n hn => (hN n hn).trans ?_⟩
  have hA : (demo4 0 0 0 200 5).A 0 = 1 := by norm_num [demo4, P4.A]
  have hA' : (demo4 0 0 0 200 5).A (-1) = 1 := by norm_num [demo4, P4.A]
  have hU : ∀ x y, (demo4 0 0 0 200 5).U1 x y = 0 := by intro x y; norm_num [demo4, P4.U1, P4.drag, pos]
  have hU0 : ∀ y, (demo4 0 0 0 200 5).U0 y = 0 := by intro y; norm_num [demo4, P4.U0, pos]
  have hg : ∀ x y, (demo4 0 0 0 200 5).gain x y = 1 := by intro x y; norm_num [demo4, P4.gain, pos]
  have hn : (demo4 0 0 0 200 5).n0 = 200 := rfl
  have ht : top 2 1 0 = 2 := by norm_num [top]
  norm_num [P4.flow, P4.I, P4.strong, drain, demo4_vth, hA, hA', hU, hU0, hg, hn, ht, tri, pos]

end Gnucap.Mos
