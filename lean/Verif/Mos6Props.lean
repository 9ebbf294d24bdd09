import Verif.Mos6Model
import Verif.MosProps
import Mathlib.Analysis.SpecialFunctions.Pow.Deriv

/-!
# Mosfet, level 6 (C89)
-/
set_option linter.unusedSimpArgs false
namespace Gnucap.Mos

/-! ## Specification: the law of the n-th power -/

/-- what the bulk adds: the root, continued by its tangent in forward bias, never negative -/
noncomputable def P6.root (p : P6) (vbs : ℝ) : ℝ :=
  if vbs ≤ 0 then Real.sqrt (p.tphi - vbs) else max (Real.sqrt p.tphi - vbs / (2 * Real.sqrt p.tphi)) 0

/-- threshold -/
noncomputable def P6.vth (p : P6) (vbs : ℝ) : ℝ := p.vbi + p.gamma * p.root vbs - p.gamma1 * vbs

/-- a parabola that rises from 0 at 0 to 1 at 1 and stays there -/
noncomputable def bow (y : ℝ) : ℝ := 1 - pos (1 - y) ^ 2

/-- saturation voltage at gate voltage `u` above threshold -/
noncomputable def P6.sat (p : P6) (u : ℝ) : ℝ := p.kv * u ^ p.nv

/-- current: a power of the gate voltage above threshold, a parabola of the drain voltage up to saturation, and a straight line
on top of it -/
noncomputable def P6.I (p : P6) (vgs vds vbs : ℝ) : ℝ :=
  let u := vgs - p.vth vbs
  if u ≤ 0 then 0 else p.beta * u ^ p.nc * (1 + (p.lambda0 - p.lambda1 * vbs) * vds) * bow (vds / p.sat u)

/-! ## Pieces -/

theorem bow_deriv (y : ℝ) : HasDerivAt bow (2 * pos (1 - y)) y := by
  have h := pos_sq_path (fun x => 1 - x) (-1) y (by simpa using (hasDerivAt_id y).const_sub 1)
  exact (h.const_sub 1).congr_deriv (by ring)

theorem bow_below {y : ℝ} (h : y ≤ 1) : bow y = (2 - y) * y := by
  unfold bow pos; rw [max_eq_left (by linarith)]; ring

theorem bow_above {y : ℝ} (h : 1 ≤ y) : bow y = 1 := by
  unfold bow pos; rw [max_eq_right (by linarith)]; ring

theorem bow_range {y : ℝ} (h : 0 ≤ y) : 0 ≤ bow y ∧ bow y ≤ 1 := by
  rcases le_total y 1 with h1 | h1
  · rw [bow_below h1]; constructor <;> nlinarith
  · rw [bow_above h1]; norm_num

theorem sarg_eq (p : P6) (vbs : ℝ) : p.sarg vbs = p.root vbs := by
  unfold P6.sarg P6.root
  split
  · rfl
  · simp only
    rw [show Real.sqrt p.tphi + Real.sqrt p.tphi = 2 * Real.sqrt p.tphi by ring]
    split
    · rename_i h; rw [max_eq_right h.le]
    · rename_i h; rw [max_eq_left (not_lt.1 h)]

/-- slope of the root -/
noncomputable def P6.rootSlope (p : P6) (vbs : ℝ) : ℝ :=
  if vbs ≤ 0 then -(1 / (2 * Real.sqrt (p.tphi - vbs))) else -(1 / (2 * Real.sqrt p.tphi))

theorem root_deriv (p : P6) (ht : 0 < p.tphi) (vbs : ℝ) (hb : vbs < 2 * p.tphi) : HasDerivAt p.root (p.rootSlope vbs) vbs := by
  have hs : 0 < Real.sqrt p.tphi := Real.sqrt_pos.2 ht
  have hss : Real.sqrt p.tphi * Real.sqrt p.tphi = p.tphi := Real.mul_self_sqrt ht.le
  have hline : ∀ x, HasDerivAt (fun x => Real.sqrt p.tphi - x / (2 * Real.sqrt p.tphi)) (-(1 / (2 * Real.sqrt p.tphi))) x := fun x =>
    ((hasDerivAt_id x).div_const (2 * Real.sqrt p.tphi)).const_sub _
  have hpos : ∀ x, x < 2 * p.tphi → 0 ≤ Real.sqrt p.tphi - x / (2 * Real.sqrt p.tphi) := by
    intro x hx
    rw [sub_nonneg, div_le_iff₀ (by positivity)]
    nlinarith
  have hroot : ∀ x, x ≤ 0 → HasDerivAt (fun x => Real.sqrt (p.tphi - x)) (-(1 / (2 * Real.sqrt (p.tphi - x)))) x := by
    intro x hx
    have h1 : HasDerivAt (fun x => p.tphi - x) (-1) x := by simpa using (hasDerivAt_id x).const_sub p.tphi
    exact (h1.sqrt (by linarith : p.tphi - x ≠ 0)).congr_deriv (by ring)
  rcases lt_trichotomy vbs 0 with h | h | h
  · have he : p.root =ᶠ[nhds vbs] fun x => Real.sqrt (p.tphi - x) := by
      filter_upwards [gt_mem_nhds h] with x hx
      unfold P6.root; rw [if_pos hx.le]
    unfold P6.rootSlope; rw [if_pos h.le]
    exact (hroot vbs h.le).congr_of_eventuallyEq he
  · subst h
    have hA := hroot 0 le_rfl
    have hB := hline 0
    have hC : HasDerivAt (fun x => if x ≤ 0 then Real.sqrt (p.tphi - x) else Real.sqrt p.tphi - x / (2 * Real.sqrt p.tphi))
        (-(1 / (2 * Real.sqrt (p.tphi - 0)))) 0 := by
      refine hasDerivAt_either _ _ _ _ _ hA (hB.congr_deriv (by rw [sub_zero])) (by simp) fun x => ?_
      by_cases hx : x ≤ 0
      · left; simp only [hx, if_true]
      · right; simp only [hx, if_false]
    unfold P6.rootSlope; rw [if_pos le_rfl]
    refine hC.congr_of_eventuallyEq ?_
    filter_upwards [gt_mem_nhds (show (0 : ℝ) < 2 * p.tphi by linarith)] with x hx
    unfold P6.root
    rw [max_eq_left (hpos x hx)]
  · have he : p.root =ᶠ[nhds vbs] fun x => Real.sqrt p.tphi - x / (2 * Real.sqrt p.tphi) := by
      filter_upwards [lt_mem_nhds h, gt_mem_nhds hb] with x hx hx'
      unfold P6.root; rw [if_neg (not_le.2 hx), max_eq_left (hpos x hx')]
    unfold P6.rootSlope; rw [if_neg (not_le.2 h)]
    exact (hline vbs).congr_of_eventuallyEq he

theorem vth_deriv6 (p : P6) (ht : 0 < p.tphi) (vbs : ℝ) (hb : vbs < 2 * p.tphi) :
    HasDerivAt p.vth (p.gamma * p.rootSlope vbs - p.gamma1) vbs := by
  have h := (((root_deriv p ht vbs hb).const_mul p.gamma).const_add p.vbi).sub ((hasDerivAt_id vbs).const_mul p.gamma1)
  exact h.congr_deriv (by ring)

/-- what the code has for a device that is on -/
theorem eval6_on (p : P6) (vgs vds vbs : ℝ) (hu : 0 < vgs - p.vth vbs) :
    let u := vgs - p.vth vbs
    let L := 1 + (p.lambda0 - p.lambda1 * vbs) * vds
    let y := vds / p.sat u
    let A := p.beta * u ^ p.nc
    let gm := A * L * (p.nc / u * bow y - 2 * pos (1 - y) * (y * p.nv / u))
    0 < p.kv →
    (p.eval vgs vds vbs).von = p.vth vbs ∧ (p.eval vgs vds vbs).vgst = u ∧ (p.eval vgs vds vbs).vdsat = p.sat u ∧
    (p.eval vgs vds vbs).ids = A * L * bow y ∧ (p.eval vgs vds vbs).gm = gm ∧
    (p.eval vgs vds vbs).gds = A * (p.lambda0 - p.lambda1 * vbs) * bow y + A * L * (2 * pos (1 - y)) / p.sat u + p.sigma * gm ∧
    (p.eval vgs vds vbs).gmb = gm * (p.gamma1 - p.gamma * (if vbs ≤ 0 then -(1 / (2 * p.root vbs)) else -(1 / (2 * Real.sqrt p.tphi)))) -
      A * p.lambda1 * vds * bow y := by
  intro u L y A gm hk
  have hsat : 0 < p.sat u := mul_pos hk (Real.rpow_pos_of_pos hu _)
  have e1 : ∀ n : ℝ, Real.exp (Real.log u * n) = u ^ n := fun n => (Real.rpow_def_of_pos hu n).symm
  have hvon : p.vbi + p.gamma * p.sarg vbs - p.gamma1 * vbs = p.vth vbs := by rw [sarg_eq]; rfl
  have hbm : (if vbs ≤ 0 then p.gamma1 + p.gamma / (p.root vbs + p.root vbs) else p.gamma1 + p.gamma * (1 / 2) / Real.sqrt p.tphi) =
      p.gamma1 - p.gamma * (if vbs ≤ 0 then -(1 / (2 * p.root vbs)) else -(1 / (2 * Real.sqrt p.tphi))) := by
    split
    · rw [show p.root vbs + p.root vbs = 2 * p.root vbs by ring]; ring
    · rw [show p.gamma * (1 / 2) / Real.sqrt p.tphi = p.gamma * (1 / (2 * Real.sqrt p.tphi)) by
        rw [one_div (2 * Real.sqrt p.tphi), mul_inv]; ring]; ring
  unfold P6.eval
  simp only [hvon]
  rw [show vgs - p.vth vbs = u from rfl, if_neg (not_le.2 hu), sarg_eq, hbm, e1, e1, show p.kv * u ^ p.nv = p.sat u from rfl]
  generalize p.gamma1 - p.gamma * (if vbs ≤ 0 then -(1 / (2 * p.root vbs)) else -(1 / (2 * Real.sqrt p.tphi))) = bm
  by_cases h : p.sat u ≤ vds
  · have hy : 1 ≤ y := (one_le_div hsat).2 h
    have hp : pos (1 - y) = 0 := max_eq_right (by linarith)
    have hbow := bow_above hy
    simp only [if_pos h, gm, hp, hbow, A, L]
    refine ⟨trivial, trivial, trivial, ?_, ?_, ?_, ?_⟩ <;> ring
  · have hy : y ≤ 1 := ((div_lt_one hsat).2 (not_le.1 h)).le
    have hp : pos (1 - y) = 1 - y := max_eq_left (by linarith)
    have hbow := bow_below hy
    simp only [if_neg h, gm, hp, hbow, A, L]
    rw [show vds / p.sat u = y from rfl]
    refine ⟨trivial, trivial, trivial, ?_, ?_, ?_, ?_⟩ <;> ring

/-- and for one that is off -/
theorem eval6_off (p : P6) (vgs vds vbs : ℝ) (hu : vgs - p.vth vbs ≤ 0) :
    (p.eval vgs vds vbs).ids = 0 ∧ (p.eval vgs vds vbs).gm = 0 ∧ (p.eval vgs vds vbs).gds = 0 ∧ (p.eval vgs vds vbs).gmb = 0 ∧
    (p.eval vgs vds vbs).von = p.vth vbs := by
  have hvon : p.vbi + p.gamma * p.sarg vbs - p.gamma1 * vbs = p.vth vbs := by rw [sarg_eq]; rfl
  unfold P6.eval
  simp only [hvon, if_pos hu, and_self]

/-! ## Current -/

/-- **C89, current.**  At every voltage level 6 gives the law of the n-th power. -/
theorem level6_current (p : P6) (hk : 0 < p.kv) (vgs vds vbs : ℝ) : (p.eval vgs vds vbs).ids = p.I vgs vds vbs := by
  unfold P6.I
  by_cases hu : vgs - p.vth vbs ≤ 0
  · simp only [if_pos hu]; exact (eval6_off p vgs vds vbs hu).1
  · simp only [if_neg hu]; exact (eval6_on p vgs vds vbs (not_le.1 hu) hk).2.2.2.1

/-- the current along a path, with the slope the feedback term leaves out -/
theorem path6 (p : P6) (hk : 0 < p.kv) (ht : 0 < p.tphi) (g d b : ℝ → ℝ) (g' d' b' t : ℝ) (hg : HasDerivAt g g' t)
    (hd : HasDerivAt d d' t) (hb : HasDerivAt b b' t) (hb0 : b t < 2 * p.tphi) (hu : g t - p.vth (b t) ≠ 0) :
    HasDerivAt (fun x => p.I (g x) (d x) (b x))
      ((p.eval (g t) (d t) (b t)).gm * g' + ((p.eval (g t) (d t) (b t)).gds - p.sigma * (p.eval (g t) (d t) (b t)).gm) * d' +
        (p.eval (g t) (d t) (b t)).gmb * b') t := by
  have hv : HasDerivAt (fun x => p.vth (b x)) ((p.gamma * p.rootSlope (b t) - p.gamma1) * b') t := (vth_deriv6 p ht (b t) hb0).comp t hb
  have hU : HasDerivAt (fun x => g x - p.vth (b x)) (g' - (p.gamma * p.rootSlope (b t) - p.gamma1) * b') t := hg.sub hv
  rcases lt_or_gt_of_ne hu with h | h
  · obtain ⟨_, e2, e3, e4, _⟩ := eval6_off p (g t) (d t) (b t) h.le
    rw [e2, e3, e4]
    have he : (fun x => p.I (g x) (d x) (b x)) =ᶠ[nhds t] fun _ => 0 := by
      filter_upwards [hU.continuousAt.eventually_lt_const h] with x hx
      unfold P6.I
      simp only [if_pos hx.le]
    exact ((hasDerivAt_const t (0 : ℝ)).congr_of_eventuallyEq he).congr_deriv (by ring)
  · obtain ⟨_, _, _, _, e2, e3, e4⟩ := eval6_on p (g t) (d t) (b t) h hk
    rw [e2, e3, e4]
    have hslope : (if b t ≤ 0 then -(1 / (2 * p.root (b t))) else -(1 / (2 * Real.sqrt p.tphi))) = p.rootSlope (b t) := by
      unfold P6.rootSlope P6.root
      by_cases hbt : b t ≤ 0
      · simp only [if_pos hbt]
      · simp only [if_neg hbt]
    rw [hslope]
    generalize hS : p.gamma * p.rootSlope (b t) = S at *
    have hne : g t - p.vth (b t) ≠ 0 := h.ne'
    have hsat : 0 < p.sat (g t - p.vth (b t)) := mul_pos hk (Real.rpow_pos_of_pos h _)
    have hA : HasDerivAt (fun x => p.beta * (g x - p.vth (b x)) ^ p.nc) _ t := (hU.rpow_const (p := p.nc) (Or.inl hne)).const_mul p.beta
    have hL : HasDerivAt (fun x => 1 + (p.lambda0 - p.lambda1 * b x) * d x) _ t :=
      (((hb.const_mul p.lambda1).const_sub p.lambda0).mul hd).const_add 1
    have hV : HasDerivAt (fun x => p.sat (g x - p.vth (b x))) _ t := (hU.rpow_const (p := p.nv) (Or.inl hne)).const_mul p.kv
    have hY : HasDerivAt (fun x => bow (d x / p.sat (g x - p.vth (b x)))) _ t := (bow_deriv _).comp t (hd.div hV hsat.ne')
    have hall := (hA.mul hL).mul hY
    have he : (fun x => p.I (g x) (d x) (b x)) =ᶠ[nhds t] ((fun x => p.beta * (g x - p.vth (b x)) ^ p.nc) *
        fun x => 1 + (p.lambda0 - p.lambda1 * b x) * d x) * fun x => bow (d x / p.sat (g x - p.vth (b x))) := by
      filter_upwards [hU.continuousAt.eventually_const_lt h] with x hx
      unfold P6.I
      simp only [if_neg (not_le.2 hx), Pi.mul_apply]
    refine (hall.congr_of_eventuallyEq he).congr_deriv ?_
    simp only [Pi.mul_apply, Pi.div_apply]
    have r1 : (g t - p.vth (b t)) ^ (p.nc - 1) = (g t - p.vth (b t)) ^ p.nc / (g t - p.vth (b t)) := Real.rpow_sub_one hne _
    have r2 : p.kv * (g t - p.vth (b t)) ^ (p.nv - 1) = p.sat (g t - p.vth (b t)) / (g t - p.vth (b t)) := by
      rw [Real.rpow_sub_one hne]; unfold P6.sat; ring
    have r3 : ∀ z, p.kv * (z * p.nv * (g t - p.vth (b t)) ^ (p.nv - 1)) = z * p.nv * (p.sat (g t - p.vth (b t)) / (g t - p.vth (b t))) := by
      intro z; rw [← r2]; ring
    rw [r1, r3]
    generalize hsv : p.sat (g t - p.vth (b t)) = sv at *
    generalize hpw : (g t - p.vth (b t)) ^ p.nc = pw at *
    generalize hbw : bow (d t / sv) = bw
    generalize hps : pos (1 - d t / sv) = ps
    generalize hw : g t - p.vth (b t) = w at *
    have hsv0 : sv ≠ 0 := hsat.ne'
    field_simp
    ring

/-- **C89, slopes.**  Without static feedback, along every smooth path of voltages the current changes as the slopes say: off, on, in
saturation or not, across the border of saturation, with the bulk forward biased up to twice `phi`. -/
theorem level6_slopes (p : P6) (hk : 0 < p.kv) (ht : 0 < p.tphi) (hs : p.sigma = 0) (g d b : ℝ → ℝ) (g' d' b' t : ℝ)
    (hg : HasDerivAt g g' t) (hd : HasDerivAt d d' t) (hb : HasDerivAt b b' t) (hb0 : b t < 2 * p.tphi)
    (hu : g t - p.vth (b t) ≠ 0) :
    HasDerivAt (fun x => (p.eval (g x) (d x) (b x)).ids)
      ((p.eval (g t) (d t) (b t)).gm * g' + (p.eval (g t) (d t) (b t)).gds * d' + (p.eval (g t) (d t) (b t)).gmb * b') t := by
  have h := path6 p hk ht g d b g' d' b' t hg hd hb hb0 hu
  rw [hs] at h
  simp only [level6_current p hk]
  exact h.congr_deriv (by ring)

/-- a device with its threshold at 1 V: the law holds in saturation, and where saturation begins -/
example : (P6.mk 0 0 1 (1 / 2) 2 0 0 0 1 1 3).eval 2 5 0 = ⟨3, 0, 3, 0, 1, 1, 2, 0, 0, 0, 0⟩ ∧
    HasDerivAt (fun x => ((P6.mk 0 0 1 (1 / 2) 2 0 0 0 1 1 3).eval 2 x 0).ids) 0 2 := by
  have hv : ∀ b, (P6.mk 0 0 1 (1 / 2) 2 0 0 0 1 1 3).vth b = 1 := fun b => by simp [P6.vth]
  constructor
  · norm_num [P6.eval, P6.sarg]
  · have h := level6_slopes (P6.mk 0 0 1 (1 / 2) 2 0 0 0 1 1 3) (by norm_num) (by norm_num) rfl (fun _ => 2) (fun x => x) (fun _ => 0) 0 1 0 2
      (hasDerivAt_const _ _) (hasDerivAt_id _) (hasDerivAt_const _ _) (by norm_num) (by rw [hv]; norm_num)
    refine h.congr_deriv ?_
    norm_num [P6.eval, P6.sarg]

/-- **C89 fails with static feedback** (d_mos6.model:155, 180, 194): `sigma` is not in the threshold but it is in the slope, so
wherever the gate has an influence the slope with drain voltage is not that of the current. -/
theorem level6_sigma_wrong (p : P6) (hk : 0 < p.kv) (ht : 0 < p.tphi) (hs : p.sigma ≠ 0) (vgs vds vbs : ℝ) (hb0 : vbs < 2 * p.tphi)
    (hu : vgs - p.vth vbs ≠ 0) (hgm : (p.eval vgs vds vbs).gm ≠ 0) :
    ¬ HasDerivAt (fun x => (p.eval vgs x vbs).ids) (p.eval vgs vds vbs).gds vds := by
  intro h
  have h0 := path6 p hk ht (fun _ => vgs) (fun x => x) (fun _ => vbs) 0 1 0 vds (hasDerivAt_const _ _) (hasDerivAt_id _)
    (hasDerivAt_const _ _) hb0 hu
  simp only [← level6_current p hk] at h0
  have := h.unique h0
  have h2 : p.sigma * (p.eval vgs vds vbs).gm = 0 := by linarith
  rcases mul_eq_zero.1 h2 with h3 | h3
  exacts [hs h3, hgm h3]

/-- the same device with `sigma` .1: the current is constant in saturation, and said to rise -/
example : ((P6.mk 0 0 1 (1 / 2) 2 (1 / 10) 0 0 1 1 3).eval 2 5 0).gds = 3 / 10 ∧
    ((P6.mk 0 0 1 (1 / 2) 2 (1 / 10) 0 0 1 1 3).eval 2 6 0).ids = 3 ∧ ((P6.mk 0 0 1 (1 / 2) 2 (1 / 10) 0 0 1 1 3).eval 2 5 0).ids = 3 := by
  norm_num [P6.eval, P6.sarg]

/-! ## Threshold -/

/-- near threshold, with some drain voltage, the device is saturated -/
theorem near_threshold (p : P6) (hk : 0 < p.kv) (hnv : 0 < p.nv) (g d b : ℝ → ℝ) (g' d' b' t : ℝ) (hg : HasDerivAt g g' t)
    (hd : HasDerivAt d d' t) (hb : HasDerivAt b b' t) (ht : 0 < p.tphi) (hb0 : b t < 2 * p.tphi)
    (hu : g t - p.vth (b t) = 0) (h0 : 0 < d t) :
    (fun x => p.I (g x) (d x) (b x)) =ᶠ[nhds t] fun x => if g x - p.vth (b x) ≤ 0 then 0 else
      p.beta * (g x - p.vth (b x)) ^ p.nc * (1 + (p.lambda0 - p.lambda1 * b x) * d x) := by
  have hv : HasDerivAt (fun x => p.vth (b x)) _ t := (vth_deriv6 p ht (b t) hb0).comp t hb
  have hU : ContinuousAt (fun x => g x - p.vth (b x)) t := (hg.sub hv).continuousAt
  have hS : ContinuousAt (fun x => d x - p.kv * (g x - p.vth (b x)) ^ p.nv) t :=
    hd.continuousAt.sub ((hU.rpow_const (Or.inr hnv.le)).const_mul p.kv)
  have h1 : 0 < d t - p.kv * (g t - p.vth (b t)) ^ p.nv := by rw [hu, Real.zero_rpow hnv.ne']; linarith
  filter_upwards [hS.eventually_const_lt h1] with x hx
  unfold P6.I
  by_cases h : g x - p.vth (b x) ≤ 0
  · simp only [if_pos h]
  · simp only [if_neg h]
    have hsat : 0 < p.sat (g x - p.vth (b x)) := mul_pos hk (Real.rpow_pos_of_pos (not_le.1 h) _)
    rw [bow_above ((one_le_div hsat).2 (by unfold P6.sat; linarith)), mul_one]

/-- **C89, threshold.**  With a power above 1 the slopes hold at threshold too. -/
theorem level6_threshold (p : P6) (hk : 0 < p.kv) (ht : 0 < p.tphi) (hn : 1 < p.nc) (hnv : 0 < p.nv) (g d b : ℝ → ℝ) (g' d' b' t : ℝ)
    (hg : HasDerivAt g g' t) (hd : HasDerivAt d d' t) (hb : HasDerivAt b b' t) (hb0 : b t < 2 * p.tphi)
    (hu : g t - p.vth (b t) = 0) (h0 : 0 < d t) :
    HasDerivAt (fun x => (p.eval (g x) (d x) (b x)).ids)
      ((p.eval (g t) (d t) (b t)).gm * g' + (p.eval (g t) (d t) (b t)).gds * d' + (p.eval (g t) (d t) (b t)).gmb * b') t := by
  obtain ⟨_, e2, e3, e4, _⟩ := eval6_off p (g t) (d t) (b t) hu.le
  simp only [level6_current p hk]
  rw [e2, e3, e4, zero_mul, zero_mul, zero_mul, add_zero, add_zero]
  have hv : HasDerivAt (fun x => p.vth (b x)) _ t := (vth_deriv6 p ht (b t) hb0).comp t hb
  have hU : HasDerivAt (fun x => g x - p.vth (b x)) _ t := hg.sub hv
  have hA : HasDerivAt (fun x => p.beta * (g x - p.vth (b x)) ^ p.nc) _ t := (hU.rpow_const (p := p.nc) (Or.inr hn.le)).const_mul p.beta
  have hL : HasDerivAt (fun x => 1 + (p.lambda0 - p.lambda1 * b x) * d x) _ t :=
    (((hb.const_mul p.lambda1).const_sub p.lambda0).mul hd).const_add 1
  have hAL := hA.mul hL
  have z1 : (g t - p.vth (b t)) ^ (p.nc - 1) = 0 := by rw [hu, Real.zero_rpow (by linarith)]
  have z2 : (g t - p.vth (b t)) ^ p.nc = 0 := by rw [hu, Real.zero_rpow (by linarith)]
  have hAL0 : HasDerivAt (fun x => p.beta * (g x - p.vth (b x)) ^ p.nc * (1 + (p.lambda0 - p.lambda1 * b x) * d x)) 0 t := by
    refine hAL.congr_deriv ?_
    rw [z1, z2]; ring
  refine HasDerivAt.congr_of_eventuallyEq ?_ (near_threshold p hk hnv g d b g' d' b' t hg hd hb ht hb0 hu h0)
  refine hasDerivAt_either _ _ _ _ _ hAL0 (hasDerivAt_const t (0 : ℝ)) (by rw [z2]; ring) fun x => ?_
  by_cases h : g x - p.vth (b x) ≤ 0
  · right; simp only [if_pos h]
  · left; simp only [if_neg h]

/-- the square law at its threshold -/
example : HasDerivAt (fun x => ((P6.mk 0 0 2 1 1 0 0 0 1 1 3).eval x 5 0).ids) 0 1 := by
  have hv : ∀ b, (P6.mk 0 0 2 1 1 0 0 0 1 1 3).vth b = 1 := fun b => by simp [P6.vth]
  have h := level6_threshold (P6.mk 0 0 2 1 1 0 0 0 1 1 3) (by norm_num) (by norm_num) (by norm_num) (by norm_num) (fun x => x) (fun _ => 5)
    (fun _ => 0) 1 0 0 1 (hasDerivAt_id _) (hasDerivAt_const _ _) (hasDerivAt_const _ _) (by norm_num) (by rw [hv]; norm_num) (by norm_num)
  refine h.congr_deriv ?_
  norm_num [P6.eval, P6.sarg]

/-- **C89 fails at threshold with the default power 1** (d_mos6.model:58): the current has a corner there, no slope is right. -/
theorem level6_corner (p : P6) (hk : 0 < p.kv) (ht : 0 < p.tphi) (hn : p.nc = 1) (hnv : 0 < p.nv) (vds vbs : ℝ) (hb0 : vbs < 2 * p.tphi)
    (h0 : 0 < vds) (hc : p.beta * (1 + (p.lambda0 - p.lambda1 * vbs) * vds) ≠ 0) :
    ¬ DifferentiableAt ℝ (fun x => (p.eval x vds vbs).ids) (p.vth vbs) := by
  simp only [level6_current p hk]
  intro hdiff
  have he := near_threshold p hk hnv (fun x => x) (fun _ => vds) (fun _ => vbs) 1 0 0 (p.vth vbs) (hasDerivAt_id _) (hasDerivAt_const _ _)
    (hasDerivAt_const _ _) ht hb0 (by simp) h0
  obtain ⟨a, ha⟩ : ∃ a, HasDerivAt (fun x => p.I x vds vbs) a (p.vth vbs) := ⟨_, hdiff.hasDerivAt⟩
  have hF := ha.congr_of_eventuallyEq he.symm
  generalize hC : p.beta * (1 + (p.lambda0 - p.lambda1 * vbs) * vds) = C at hc
  have hform : ∀ x, (if x - p.vth vbs ≤ 0 then 0 else p.beta * (x - p.vth vbs) ^ p.nc * (1 + (p.lambda0 - p.lambda1 * vbs) * vds)) =
      if x - p.vth vbs ≤ 0 then 0 else C * (x - p.vth vbs) := by
    intro x
    split
    · rfl
    · rw [hn, Real.rpow_one, ← hC]; ring
  simp only [hform] at hF
  have hl : HasDerivWithinAt (fun _ : ℝ => (0 : ℝ)) a (Set.Iic (p.vth vbs)) (p.vth vbs) :=
    hF.hasDerivWithinAt.congr (fun x hx => by rw [if_pos (sub_nonpos.2 hx)]) (by simp)
  have hr : HasDerivWithinAt (fun x => C * (x - p.vth vbs)) a (Set.Ici (p.vth vbs)) (p.vth vbs) := by
    refine hF.hasDerivWithinAt.congr (fun x hx => ?_) (by simp)
    rcases eq_or_lt_of_le (Set.mem_Ici.1 hx) with h | h
    · rw [← h]; simp
    · rw [if_neg (by linarith)]
  have ea : a = 0 := (uniqueDiffOn_Iic _ _ Set.self_mem_Iic).eq_deriv _ hl (hasDerivWithinAt_const _ _ _)
  have eC : a = C := by
    have h2 : HasDerivWithinAt (fun x => C * (x - p.vth vbs)) C (Set.Ici (p.vth vbs)) (p.vth vbs) := by
      have := (((hasDerivAt_id (p.vth vbs)).sub_const (p.vth vbs)).const_mul C).hasDerivWithinAt (s := Set.Ici (p.vth vbs))
      simpa using this
    exact (uniqueDiffOn_Ici _ _ Set.self_mem_Ici).eq_deriv _ hr h2
  exact hc (eC.symm.trans ea)

/-- the device of the examples above has such a corner -/
example : ¬ DifferentiableAt ℝ (fun x => ((P6.mk 0 0 1 (1 / 2) 2 0 0 0 1 1 3).eval x 5 0).ids) 1 := by
  have h := level6_corner (P6.mk 0 0 1 (1 / 2) 2 0 0 0 1 1 3) (by norm_num) (by norm_num) rfl (by norm_num) 5 0 (by norm_num) (by norm_num)
    (by norm_num)
  have hv : (P6.mk 0 0 1 (1 / 2) 2 0 0 0 1 1 3).vth 0 = 1 := by simp [P6.vth]
  rwa [hv] at h

/-! ## Forward biased bulk -/

/-- **C89 fails with the bulk far forward** (d_mos6.model:143-145, 169): beyond twice `phi` the root is 0 and no longer moves, the
slope is still that of the tangent. -/
theorem level6_bulk_wrong (p : P6) (hk : 0 < p.kv) (ht : 0 < p.tphi) (hgam : p.gamma ≠ 0) (vgs vds vbs : ℝ) (hb0 : 2 * p.tphi < vbs)
    (hu : 0 < vgs - p.vth vbs) (hgm : (p.eval vgs vds vbs).gm ≠ 0) :
    ¬ HasDerivAt (fun x => (p.eval vgs vds x).ids) (p.eval vgs vds vbs).gmb vbs := by
  intro hbad
  have hs : 0 < Real.sqrt p.tphi := Real.sqrt_pos.2 ht
  have hss : Real.sqrt p.tphi * Real.sqrt p.tphi = p.tphi := Real.mul_self_sqrt ht.le
  have hz : ∀ x, 2 * p.tphi < x → p.root x = 0 := by
    intro x hx
    unfold P6.root
    rw [if_neg (by linarith), max_eq_right]
    rw [sub_nonpos, le_div_iff₀ (by positivity)]
    nlinarith
  -- the same device without the root
  let q : P6 := { p with gamma := 0 }
  have hqv : ∀ x, 2 * p.tphi < x → p.vth x = q.vth x := by
    intro x hx
    unfold P6.vth; rw [hz x hx]; simp [q]
  have hI : (fun x => (p.eval vgs vds x).ids) =ᶠ[nhds vbs] fun x => q.I vgs vds x := by
    filter_upwards [lt_mem_nhds hb0] with x hx
    rw [level6_current p hk]
    unfold P6.I
    rw [hqv x hx]; rfl
  have hqd : HasDerivAt (fun x => q.vth x) (-p.gamma1) vbs := by
    have h := ((hasDerivAt_id vbs).const_mul p.gamma1).const_sub p.vbi
    have he : (fun x => q.vth x) = fun x => p.vbi - p.gamma1 * x := by funext x; simp [P6.vth, q]
    rw [he]
    exact h.congr_deriv (by ring)
  -- with `phi` so large that the bulk is not far forward the path theorem applies to it
  let r : P6 := { q with tphi := vbs }
  have hr : ∀ x, r.vth x = q.vth x := fun x => by simp [P6.vth, q, r]
  have hrI : ∀ x, r.I vgs vds x = q.I vgs vds x := fun x => by unfold P6.I; rw [hr]; rfl
  have hp := path6 r hk (show 0 < r.tphi by show 0 < vbs; linarith) (fun _ => vgs) (fun _ => vds) (fun x => x) 0 0 1 vbs (hasDerivAt_const _ _)
    (hasDerivAt_const _ _) (hasDerivAt_id _) (by show vbs < 2 * vbs; linarith) (by rw [hr, ← hqv vbs hb0]; exact hu.ne')
  simp only [hrI] at hp
  have := (hbad.congr_of_eventuallyEq hI.symm).unique hp
  obtain ⟨_, _, _, _, m1, _, m3⟩ := eval6_on p vgs vds vbs hu hk
  obtain ⟨_, _, _, _, n1, _, n3⟩ := eval6_on r vgs vds vbs (by rw [hr, ← hqv vbs hb0]; exact hu) hk
  have hsame : (r.eval vgs vds vbs).gm = (p.eval vgs vds vbs).gm := by
    rw [m1, n1]
    simp only [hr, ← hqv vbs hb0]
    rfl
  rw [m3, n3] at this
  simp only [hr, ← hqv vbs hb0] at this
  rw [if_neg (show ¬ vbs ≤ 0 by linarith)] at this
  have hx : (p.eval vgs vds vbs).gm * (p.gamma * (1 / (2 * Real.sqrt p.tphi))) = 0 := by
    rw [m1]
    have e1 : r.gamma = 0 := rfl
    rw [e1] at this
    simp only [r, q, P6.sat] at this ⊢
    linear_combination this
  rcases mul_eq_zero.1 hx with h | h
  · exact hgm h
  · rcases mul_eq_zero.1 h with h | h
    · exact hgam h
    · exact absurd h (by positivity)

/-- `phi` 1 V, the bulk 3 V above the source -/
example : ¬ HasDerivAt (fun x => ((P6.mk 1 0 1 (1 / 2) 2 0 0 0 1 1 3).eval 2 5 x).ids)
    ((P6.mk 1 0 1 (1 / 2) 2 0 0 0 1 1 3).eval 2 5 3).gmb 3 :=
  level6_bulk_wrong (P6.mk 1 0 1 (1 / 2) 2 0 0 0 1 1 3) (by norm_num) (by norm_num) (by norm_num) 2 5 3 (by norm_num)
    (by norm_num [P6.vth, P6.root]) (by norm_num [P6.eval, P6.sarg])

/-! ## Signs -/

/-- **C89, signs.**  Between drain and source the channel never delivers power, and the current grows with gate and drain voltage, if
the power of the current is at least that of the saturation voltage. -/
theorem level6_passive (p : P6) (hk : 0 < p.kv) (hbt : 0 ≤ p.beta) (h0 : 0 ≤ p.lambda0) (h1 : 0 ≤ p.lambda1) (hv : 0 ≤ p.nv) (hn : p.nv ≤ p.nc)
    (hs : p.sigma = 0) (vgs vds vbs : ℝ) (hd : 0 ≤ vds) (hb : vbs ≤ 0) :
    0 ≤ (p.eval vgs vds vbs).ids ∧ 0 ≤ (p.eval vgs vds vbs).gm ∧ 0 ≤ (p.eval vgs vds vbs).gds := by
  by_cases hu : vgs - p.vth vbs ≤ 0
  · obtain ⟨e1, e2, e3, _⟩ := eval6_off p vgs vds vbs hu
    rw [e1, e2, e3]; simp
  · have hu' := not_le.1 hu
    obtain ⟨_, _, _, e1, e2, e3, _⟩ := eval6_on p vgs vds vbs hu' hk
    rw [e1, e2, e3, hs]
    have hsat : 0 < p.sat (vgs - p.vth vbs) := mul_pos hk (Real.rpow_pos_of_pos hu' _)
    have hy : 0 ≤ vds / p.sat (vgs - p.vth vbs) := by positivity
    have hA : 0 ≤ p.beta * (vgs - p.vth vbs) ^ p.nc := mul_nonneg hbt (Real.rpow_pos_of_pos hu' _).le
    have hl : 0 ≤ p.lambda0 - p.lambda1 * vbs := by nlinarith
    have hL : 0 ≤ 1 + (p.lambda0 - p.lambda1 * vbs) * vds := by positivity
    have hp : 0 ≤ pos (1 - vds / p.sat (vgs - p.vth vbs)) := le_max_right _ _
    have hbw := (bow_range hy).1
    generalize hY : vds / p.sat (vgs - p.vth vbs) = y at *
    generalize hw : vgs - p.vth vbs = w at *
    refine ⟨by positivity, ?_, ?_⟩
    · refine mul_nonneg (by positivity) ?_
      rw [show p.nc / w * bow y - 2 * pos (1 - y) * (y * p.nv / w) = (p.nc * bow y - 2 * pos (1 - y) * (y * p.nv)) / w by ring]
      refine div_nonneg ?_ hu'.le
      rcases le_total y 1 with h | h
      · rw [bow_below h, show pos (1 - y) = 1 - y from max_eq_left (by linarith)]
        have : 0 ≤ y * ((2 - y) * (p.nc - p.nv) + p.nv * y) := by
          have : 0 ≤ 2 - y := by linarith
          have : 0 ≤ p.nc - p.nv := by linarith
          positivity
        nlinarith
      · rw [show pos (1 - y) = 0 from max_eq_right (by linarith), bow_above h]
        linarith
    · rw [zero_mul, add_zero]; positivity

/-- **More gate, less current**: if the saturation voltage grows faster than the current, then at small drain voltage the gate turns
the device down. -/
theorem level6_turns_down (p : P6) (hk : 0 < p.kv) (hbt : 0 < p.beta) (h0 : p.lambda0 = 0) (h1 : p.lambda1 = 0) (hn : p.nc < p.nv)
    (vgs vbs : ℝ) (hu : 0 < vgs - p.vth vbs) :
    ∃ v, 0 < v ∧ ∀ vds, 0 < vds → vds < v → (p.eval vgs vds vbs).gm < 0 := by
  have hsat : 0 < p.sat (vgs - p.vth vbs) := mul_pos hk (Real.rpow_pos_of_pos hu _)
  -- the bracket is y ((2 - y) nc - 2 (1 - y) nv)
  have hd : 0 < p.nv - p.nc := by linarith
  have hM : 0 < 2 * |p.nv| + |p.nc| + (p.nv - p.nc) := by positivity
  refine ⟨p.sat (vgs - p.vth vbs) * ((p.nv - p.nc) / (2 * |p.nv| + |p.nc| + (p.nv - p.nc))), by positivity, fun vds h h' => ?_⟩
  obtain ⟨_, _, _, _, e2, _⟩ := eval6_on p vgs vds vbs hu hk
  rw [e2, h0, h1]
  have hy0 : 0 < vds / p.sat (vgs - p.vth vbs) := by positivity
  have hy1 : vds / p.sat (vgs - p.vth vbs) < (p.nv - p.nc) / (2 * |p.nv| + |p.nc| + (p.nv - p.nc)) := by
    rw [div_lt_iff₀ hsat]; linarith
  have hA : 0 < p.beta * (vgs - p.vth vbs) ^ p.nc := mul_pos hbt (Real.rpow_pos_of_pos hu _)
  generalize vds / p.sat (vgs - p.vth vbs) = y at *
  generalize vgs - p.vth vbs = w at *
  have hyM : y * (2 * |p.nv| + |p.nc| + (p.nv - p.nc)) < p.nv - p.nc := (lt_div_iff₀ hM).1 hy1
  have hy2 : y < 1 := by
    by_contra hc
    have : 1 ≤ y := not_lt.1 hc
    have a1 : 0 ≤ |p.nv| := abs_nonneg _
    have a2 : 0 ≤ |p.nc| := abs_nonneg _
    nlinarith
  rw [bow_below hy2.le, show pos (1 - y) = 1 - y from max_eq_left (by linarith)]
  have hkey : (2 - y) * p.nc - 2 * (1 - y) * p.nv < 0 := by
    have a1 : p.nv ≤ |p.nv| := le_abs_self _
    have a2 : -p.nc ≤ |p.nc| := neg_le_abs _
    have b1 : y * p.nv ≤ y * |p.nv| := by gcongr
    have b2 : y * -p.nc ≤ y * |p.nc| := by gcongr
    nlinarith
  have : p.nc / w * ((2 - y) * y) - 2 * (1 - y) * (y * p.nv / w) = y / w * ((2 - y) * p.nc - 2 * (1 - y) * p.nv) := by ring
  rw [this]
  have h3 : y / w * ((2 - y) * p.nc - 2 * (1 - y) * p.nv) < 0 := mul_neg_of_pos_of_neg (by positivity) hkey
  refine mul_neg_of_pos_of_neg ?_ h3
  simpa using hA

/-- powers 1 and 2, a tenth of a volt at the drain, gate one volt above threshold -/
example : ((P6.mk 0 0 1 2 1 0 0 0 1 1 3).eval 2 (1 / 10) 0).gm = -51 / 100 ∧
    ((P6.mk 0 0 1 (1 / 2) 1 0 0 0 1 1 3).eval 2 (1 / 10) 0).gm = 3 / 10 := by
  norm_num [P6.eval, P6.sarg]

/-! ## Device -/

/-- Specification: the current from drain to source of a symmetric device -/
noncomputable def P6.F (p : P6) (pol : ℝ) (v : Nodes) : ℝ :=
  pol * (if 0 ≤ pol * (v.d - v.s) then p.I (pol * (v.g - v.s)) (pol * (v.d - v.s)) (pol * (v.b - v.s))
    else -p.I (pol * (v.g - v.d)) (pol * (v.s - v.d)) (pol * (v.b - v.d)))

theorem eval6_von (p : P6) : ∀ g d b, (p.eval g d b).von = p.vth b := by
  intro g d b
  have hvon : p.vbi + p.gamma * p.sarg b - p.gamma1 * b = p.vth b := by rw [sarg_eq]; rfl
  unfold P6.eval
  simp only [hvon]
  split_ifs <;> rfl

theorem I6_zero (p : P6) (g b : ℝ) : p.I g 0 b = 0 := by
  unfold P6.I; simp only [zero_div, bow_below zero_le_one]; split <;> ring

/-- **C89, from any state.**  With node voltages held, after finitely many iterations the current loaded is, and stays, that of the
law, in either direction and for either channel, if the bulk is at or below source and drain (above, for a p channel).  Static
feedback does no harm here. -/
theorem level6_device (p : P6) (hk : 0 < p.kv) (c : Cfg) (hc : c.E = p.eval) (hp : c.pol = 1 ∨ c.pol = -1) (v : Nodes)
    (h1 : c.pol * (v.b - v.s) ≤ 0) (h2 : c.pol * (v.b - v.d) ≤ 0) (s : St) :
    ∃ N, ∀ n, N ≤ n → ((St.doTr c false v)^[n] s).iDS v = p.F c.pol v := by
  obtain ⟨N, hN⟩ := settles c v p.vth (by rw [hc]; exact eval6_von p) s
  refine ⟨N, fun n hn => ?_⟩
  have hst := hN n hn
  generalize (St.doTr c false v)^[n] s = st at hst
  have hB : effVbs c v st.reversed ≤ 0 := by
    unfold effVbs; split
    · exact h2
    · exact h1
  rw [settled_flow c v st hst hp, max_eq_right hB, mul_zero, add_zero, (settled_out c v st hst).2.1]
  obtain ⟨hd0, hd, hg, hb, _⟩ := hst
  rw [hc, level6_current p hk, hd, hg, hb, min_eq_left hB]
  unfold P6.F
  cases hr : st.reversed
  · rw [hr] at hd0
    simp only [effVds, effVgs, effVbs, Bool.false_eq_true, if_false] at hd0 ⊢
    rw [if_pos hd0]; ring
  · rw [hr] at hd0
    simp only [effVds, effVgs, effVbs, if_true] at hd0 ⊢
    by_cases h : 0 ≤ c.pol * (v.d - v.s)
    · have e0 : c.pol * (v.s - v.d) = 0 := by nlinarith
      have e1 : c.pol * (v.d - v.s) = 0 := by linarith
      rw [if_pos h, e0, e1, I6_zero, I6_zero]; ring
    · rw [if_neg h]; ring

/-- the device of the examples above in a circuit, drain and source exchanged -/
example (s : St) : ∃ M, ∀ m, M ≤ m →
    ((St.doTr ⟨(P6.mk 0 0 1 (1 / 2) 2 0 0 0 1 1 3).eval, 1, false, false, true⟩ false ⟨0, 2, 5, 0⟩)^[m] s).iDS ⟨0, 2, 5, 0⟩ = -3 := by
  obtain ⟨N, hN⟩ := level6_device (P6.mk 0 0 1 (1 / 2) 2 0 0 0 1 1 3) (by norm_num) ⟨_, 1, false, false, true⟩ rfl (Or.inl rfl) ⟨0, 2, 5, 0⟩
    (by norm_num) (by norm_num) s
  refine ⟨N, fun n hn => (hN n hn).trans ?_⟩
  norm_num [P6.F, P6.I, P6.vth, P6.sat, bow, pos]

/-! ## Temperature -/

/-- `fixzero` moves a value by less than the tolerance -/
theorem fixzero_near (tol z r : ℝ) : |fixzero tol z r - z| ≤ |r * tol| := by
  unfold fixzero
  split
  · rename_i h; simpa using h.le
  · rw [sub_self, abs_zero]; exact abs_nonneg _

/-- **C89, nominal temperature.**  There the threshold at no bulk voltage is `vto` and the factor `kc w / l`. -/
theorem level6_nominal (m : P6) (tol vto phi pol kc w l k q kq tnom : ℝ) (h : 0 < tnom) :
    |(m.at tol vto phi pol kc w l k q kq tnom tnom).vth 0 - vto| ≤ |phi * tol| ∧
    (m.at tol vto phi pol kc w l k q kq tnom tnom).beta = kc * w / l := by
  have e : tnom / tnom = 1 := div_self h.ne'
  have hphi' : phiAt phi k q kq tnom tnom = phi := by unfold phiAt; rw [e]; simp
  constructor
  · unfold P6.at P6.vth P6.root vbiAt
    simp only [hphi', le_refl, if_true, sub_zero, mul_zero, sub_self, add_zero]
    have := fixzero_near tol (vto - m.gamma * Real.sqrt phi) phi
    rw [show fixzero tol (vto - m.gamma * Real.sqrt phi) phi + m.gamma * Real.sqrt phi - vto =
      fixzero tol (vto - m.gamma * Real.sqrt phi) phi - (vto - m.gamma * Real.sqrt phi) by ring]
    exact this
  · unfold P6.at; simp only [e]; simp

/-- **C89, threshold at temperature.**  Calculated from the process, the threshold at a temperature is not that which the same
formulas give with the surface potential and the energy gap of that temperature: it is off by the change of the surface potential for
a p channel, and by the change of the energy gap for a gate doped like the substrate. -/
theorem level6_temp (m : P6) (tol phi pol tpg kc w l k q kq tnom temp nss cox : ℝ) (ht : tpg = 1 ∨ tpg = -1) :
    |(m.at tol (vtoProcess pol tpg (egapAt tnom) phi m.gamma q nss cox) phi pol kc w l k q kq tnom temp).vth 0 -
      (vtoProcess pol tpg (egapAt temp) (phiAt phi k q kq tnom temp) m.gamma q nss cox +
        (pol - 1) / 2 * (phiAt phi k q kq tnom temp - phi) + (1 - tpg) / 2 * (egapAt tnom - egapAt temp))| ≤ |phi * tol| := by
  have h0 : tpg ≠ 0 := by rcases ht with h | h <;> rw [h] <;> norm_num
  unfold P6.at P6.vth P6.root vbiAt vtoProcess
  simp only [le_refl, if_true, sub_zero, mul_zero, if_neg h0]
  generalize phiAt phi k q kq tnom temp = ph
  set z := -(tpg * egapAt tnom + phi) / 2 - pol * q * nss / cox + phi + m.gamma * Real.sqrt phi - m.gamma * Real.sqrt phi +
    1 / 2 * (egapAt tnom - egapAt temp) + pol * (1 / 2) * (ph - phi) with hz
  have := fixzero_near tol z phi
  rw [show fixzero tol z phi + m.gamma * Real.sqrt ph -
      (-(tpg * egapAt temp + ph) / 2 - pol * q * nss / cox + ph + m.gamma * Real.sqrt ph + (pol - 1) / 2 * (ph - phi) +
        (1 - tpg) / 2 * (egapAt tnom - egapAt temp)) = fixzero tol z phi - z by rw [hz]; ring]
  exact this

/-- **An n channel device with the usual gate is right, a p channel device is not** (d_mos6.model:115; levels 2 and 3 alike): its
threshold moves against the surface potential. -/
theorem level6_temp_wrong (m : P6) (phi kc w l k q kq tnom temp nss cox : ℝ) :
    (m.at 0 (vtoProcess 1 1 (egapAt tnom) phi m.gamma q nss cox) phi 1 kc w l k q kq tnom temp).vth 0 =
      vtoProcess 1 1 (egapAt temp) (phiAt phi k q kq tnom temp) m.gamma q nss cox ∧
    (m.at 0 (vtoProcess (-1) 1 (egapAt tnom) phi m.gamma q nss cox) phi (-1) kc w l k q kq tnom temp).vth 0 =
      vtoProcess (-1) 1 (egapAt temp) (phiAt phi k q kq tnom temp) m.gamma q nss cox - (phiAt phi k q kq tnom temp - phi) := by
  have e1 := level6_temp m 0 phi 1 1 kc w l k q kq tnom temp nss cox (Or.inl rfl)
  have e2 := level6_temp m 0 phi (-1) 1 kc w l k q kq tnom temp nss cox (Or.inl rfl)
  rw [mul_zero, abs_zero] at e1 e2
  have f1 := abs_nonpos_iff.1 e1
  have f2 := abs_nonpos_iff.1 e2
  constructor <;> linarith

/-- the surface potential does move -/
example : phiAt 1 1 0 0 300 600 = 2 := by norm_num [phiAt]

/-- level 1 is right for both channels -/
theorem level1_temp (pol phi gamma lambda kp w l k q kq tnom temp nss cox : ℝ) :
    (P1.at (vtoProcess pol 1 (egapAt tnom) phi gamma q nss cox) gamma phi lambda kp w l k q kq tnom temp).vth 0 =
      vtoProcess pol 1 (egapAt temp) (phiAt phi k q kq tnom temp) gamma q nss cox := by
  unfold P1.at P1.vth vtoProcess
  simp only [sub_zero]
  rw [show phi * (temp / tnom) + (-2 * (temp * kq) * (3 / 2 * Real.log (temp / tnom) +
    q * ((egapAt tnom * (temp / tnom) - egapAt temp) / (2 * (temp * k))))) = phiAt phi k q kq tnom temp from rfl]
  norm_num
  ring

end Gnucap.Mos
