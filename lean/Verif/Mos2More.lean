import Verif.Mos2Props

/-!
# Mosfet, level 2: weak inversion, where the slopes are wrong, the device (C97)
-/
set_option linter.unusedSimpArgs false
namespace Gnucap.Mos

/-! ## Weak inversion -/

/-- below the border -/
structure P2.Weak (p : P2) (vgs vds vbs : ℝ) : Prop where
  ok : p.Ok vds vbs
  plain : p.Plain vds vbs
  sub : p.sub = true
  n : 0 < p.vt * p.N vds vbs
  below : vgs - p.T vbs < p.Q vds vbs + p.vt * p.N vds vbs

theorem weak_I (p : P2) {vgs vds vbs : ℝ} (hs : p.sub = true) (hb : vgs - p.T vbs < p.Q vds vbs + p.vt * p.N vds vbs) :
    p.I vgs vds vbs = p.K (p.Q vds vbs + p.vt * p.N vds vbs) vds vbs *
      Real.exp ((vgs - p.T vbs - p.Q vds vbs - p.vt * p.N vds vbs) / (p.vt * p.N vds vbs)) := by
  unfold P2.I
  simp only [if_pos hs, if_pos hb]

/-- mobility is as at no field there -/
theorem weak_mob (p : P2) {vds vbs : ℝ} (h : p.Ok vds vbs) (x dv : ℝ) (hx : x < 0) : p.mob x dv = ⟨1, 0, 0⟩ := by
  have hb := h.vbp
  unfold P2.mob
  cases he : p.uexp with
  | none => rfl
  | some e =>
    simp only
    rw [if_neg]
    rw [he] at hb
    have := hb.resolve_left (by simp)
    linarith

/-- what the code gives there -/
theorem weak_fields (p : P2) (hv : p.vmax = none) {vgs vds vbs : ℝ} (h : p.Weak vgs vds vbs) :
    let k := p.bulk vds vbs
    let n := p.vt * p.N vds vbs
    let u := p.Q vds vbs + n
    let x := vgs - p.T vbs - p.Q vds vbs - n
    let w := Real.exp (x / n)
    let o := p.on k (p.T vbs + u) x
    (p.out vgs vds vbs).ids = o.ids * w ∧ (p.out vgs vds vbs).gm = o.ids / n * w ∧
    (p.out vgs vds vbs).gds = o.gds * w - ((p.out vgs vds vbs).gm * (k.m.d * k.s.r + p.vt * (k.m.d * k.s.d)) +
      o.ids * w * x / (n * p.N vds vbs) * (k.m.d * k.s.d)) ∧
    (p.out vgs vds vbs).gmb = (o.gmb + p.dvon k * o.bv) * w - ((p.out vgs vds vbs).gm * p.dvon k +
      o.ids * w * x / (n * p.N vds vbs) * P2.dxn k) ∧ p.Q vds vbs ≤ p.T vbs + u - p.T vbs ∧
    o.ids = p.K u vds vbs ∧ x < 0 := by
  intro k n u x w o
  have hvon := von_eq p h.ok
  rw [if_pos h.sub] at hvon
  have hlt : vgs < p.von (p.bulk vds vbs) := by have := h.below; linarith
  have hx : x < 0 := by have := h.below; show vgs - p.T vbs - p.Q vds vbs - n < 0; linarith
  have hn := h.n
  have hq : p.Q vds vbs ≤ p.T vbs + u - p.T vbs := by show _ ≤ p.T vbs + (p.Q vds vbs + n) - p.T vbs; linarith
  have hxe : vgs - p.von (p.bulk vds vbs) = x := by rw [hvon]; show _ = vgs - p.T vbs - p.Q vds vbs - n; ring
  have hve : p.von (p.bulk vds vbs) = p.T vbs + u := by rw [hvon]; show _ = p.T vbs + (p.Q vds vbs + n); ring
  obtain ⟨_, _, _, _, g5, _⟩ := on_fields p hv h.ok h.plain (p.T vbs + u) x hq
  have hids : o.ids = p.K u vds vbs := by
    have := on_current p hv h.ok h.plain (p.T vbs + u) x hq
    have hm : p.move x = 1 := by
      have := weak_mob p h.ok x 0 hx
      obtain hx1 | hx1 := h.ok.vbp
      · unfold P2.move; rw [hx1]
      · unfold P2.move
        cases p.uexp with
        | none => rfl
        | some e => simp only; rw [if_neg (by linarith)]
    rw [hm, mul_one, add_sub_cancel_left] at this
    exact this
  unfold P2.out P2.weak
  simp only [if_pos h.sub, if_pos hlt]
  rw [hxe, hve, N2_eq p h.ok]
  have hg : (p.on (p.bulk vds vbs) (p.T vbs + u) x).gsat = 0 := g5
  simp only [hg, add_zero]
  exact ⟨rfl, rfl, rfl, rfl, hq, hids, hx⟩

/-- **C97, weak inversion, transconductance.** -/
theorem level2_weak_gm (p : P2) (hv : p.vmax = none) (vgs vds vbs : ℝ) (h : p.Weak vgs vds vbs) :
    HasDerivAt (fun x => p.I x vds vbs) (p.out vgs vds vbs).gm vgs := by
  obtain ⟨_, w2, _, _, _, w6, _⟩ := weak_fields p hv h
  have hn := h.n
  have hE : HasDerivAt (fun x => p.K (p.Q vds vbs + p.vt * p.N vds vbs) vds vbs *
      Real.exp ((x - p.T vbs - p.Q vds vbs - p.vt * p.N vds vbs) / (p.vt * p.N vds vbs))) _ vgs :=
    (((((((hasDerivAt_id vgs).sub_const (p.T vbs)).sub_const (p.Q vds vbs)).sub_const (p.vt * p.N vds vbs)).div_const
      (p.vt * p.N vds vbs)).exp)).const_mul _
  refine (hE.congr_of_eventuallyEq ?_).congr_deriv ?_
  · have hc : ContinuousAt (fun x => x - p.T vbs) vgs := by fun_prop
    filter_upwards [hc.eventually_lt_const h.below] with x hx
    exact weak_I p h.sub hx
  · rw [w2, w6]
    simp only [id]
    ring

/-- **C97, weak inversion, output conductance** of a long channel -/
theorem level2_weak_gds (p : P2) (hv : p.vmax = none) (vgs vds vbs : ℝ) (h : p.Weak vgs vds vbs) (hs : p.short = false) :
    ∃ r, |r| ≤ |(p.out vgs vds vbs).ids * p.tol| ∧ HasDerivAt (fun x => p.I vgs x vbs) ((p.out vgs vds vbs).gds + r) vds := by
  obtain ⟨w1, _, w3, _, hq, w6, hx⟩ := weak_fields p hv h
  obtain ⟨f1, _, ⟨q, q1, _, f3⟩, _⟩ := on_fields p hv h.ok h.plain _ (vgs - p.T vbs - p.Q vds vbs - p.vt * p.N vds vbs) hq
  rw [weak_mob p h.ok _ _ hx] at f1 f3 q1
  have hmd : (p.bulk vds vbs).m.d = 0 := by
    have e1 : (p.bulk vds vbs).m = p.gam (p.bulk vds vbs).s (p.bulk vds vbs).b := rfl
    rw [e1]; unfold P2.gam; simp [hs]
  have hG : ∀ x y, p.G x y = p.gamma := fun x y => by unfold P2.G; simp [hs]
  have hQ : ∀ x, p.Q x = p.Q vds := fun x => by funext y; unfold P2.Q; rw [hG, hG]
  have hN : ∀ x, p.N x vbs = p.N vds vbs := fun x => by unfold P2.N; rw [hQ]
  have hu : HasDerivAt (fun _ : ℝ => p.T vbs + (p.Q vds vbs + p.vt * p.N vds vbs) - p.T vbs) (0 + p.eta1 * 0) vds :=
    (hasDerivAt_const _ _).congr_deriv (by ring)
  have hK := K_path p (d := id) (b := fun _ => vbs) (t := vds) h.ok h.plain hu (hasDerivAt_id _) (hasDerivAt_const _ _) hq
    (Or.inr (Or.inl hs)) (p.uo * 1)
  simp only [id] at hK
  set w := Real.exp ((vgs - p.T vbs - p.Q vds vbs - p.vt * p.N vds vbs) / (p.vt * p.N vds vbs)) with hw
  refine ⟨(p.beta * 1 / (p.length (p.uo * 1) vds (p.grove (p.bulk vds vbs) (p.T vbs + (p.Q vds vbs + p.vt * p.N vds vbs) - p.T vbs))).f *
      charge (p.T vbs + (p.Q vds vbs + p.vt * p.N vds vbs) - p.T vbs) (p.G vds vbs) (p.eta1 + 1) (p.tphi - vbs)
        (min vds (vend (p.T vbs + (p.Q vds vbs + p.vt * p.N vds vbs) - p.T vbs) (p.G vds vbs) (p.eta1 + 1) (p.tphi - vbs))) - q) * w, ?_,
    ((hK.mul_const w).congr_of_eventuallyEq ?_).congr_deriv ?_⟩
  · rw [w1, abs_mul, mul_right_comm, abs_mul _ w]
    exact mul_le_mul_of_nonneg_right q1 (abs_nonneg w)
  · refine Filter.Eventually.of_forall fun y => ?_
    show p.I vgs y vbs = _
    rw [weak_I p h.sub (by rw [hQ y, hN y]; exact h.below), hQ y, hN y]
    simp only [add_sub_cancel_left]
    rw [hw]
  · rw [w3, f3, hmd, w6]
    simp only [mul_zero, add_zero, mul_one, zero_mul, zero_add, add_sub_cancel_left, sub_zero]
    ring

/-- **C97, weak inversion, slope with bulk voltage** of a long channel with `lambda`: what the code has too much.  The slope of the
emission factor has the wrong sign (d_mos2.model:297-298). -/
theorem level2_weak_gmb (p : P2) (hv : p.vmax = none) (vgs vds vbs : ℝ) (h : p.Weak vgs vds vbs) (hs : p.short = false)
    (hl : p.lambda ≠ none) :
    let n := p.vt * p.N vds vbs
    let u := p.Q vds vbs + n
    let x := vgs - p.T vbs - p.Q vds vbs - n
    let c := pinch (p.xwb / p.leff) (p.left vds (vend u p.gamma (p.eta1 + 1) (p.tphi - vbs)))
    let z := min vds (vend u p.gamma (p.eta1 + 1) (p.tphi - vbs))
    HasDerivAt (fun y => p.I vgs vds y) ((p.out vgs vds vbs).gmb +
      p.gamma / (2 * (p.tphi - vbs) * Real.sqrt (p.tphi - vbs)) * Real.exp (x / n) *
        (p.vt * (p.beta / c * z) - p.K u vds vbs / p.N vds vbs - p.K u vds vbs * x / (n * p.N vds vbs))) vbs := by
  intro n u x c z
  obtain ⟨w1, w2, _, w4, hq, w6, hx⟩ := weak_fields p hv h
  obtain ⟨f1, _, _, f4, _, f6, _⟩ := on_fields p hv h.ok h.plain _ (vgs - p.T vbs - p.Q vds vbs - p.vt * p.N vds vbs) hq
  rw [weak_mob p h.ok _ _ hx] at f1 f4 f6
  have hf : 0 < p.tphi - vbs := by have := h.ok.phi; have := h.ok.bulk; linarith
  have hr := Real.sqrt_pos.2 hf
  have hmb : (p.bulk vds vbs).m = ⟨p.gamma, 0, 0, 0⟩ := by
    have e1 : (p.bulk vds vbs).m = p.gam (p.bulk vds vbs).s (p.bulk vds vbs).b := rfl
    rw [e1]; unfold P2.gam; simp [hs]
  obtain ⟨s1, s2, s3, _⟩ := bulk_s p h.ok
  have hG : ∀ x y, p.G x y = p.gamma := fun x y => by unfold P2.G; simp [hs]
  have hQf : p.Q vds = fun y => p.gamma * Real.sqrt (p.tphi - y) := by funext y; unfold P2.Q; rw [hG]
  have hQd : ∀ y, 0 < p.tphi - y → HasDerivAt (p.Q vds) (p.gamma * (-(1 / 2) / Real.sqrt (p.tphi - y))) y := by
    intro y hy
    rw [hQf]
    exact ((root_path p (hasDerivAt_id y) hy).const_mul p.gamma).congr_deriv (by simp)
  have hNe : (fun y => p.N vds y) =ᶠ[nhds vbs] fun y => 1 + p.cfsox + p.eta1 - p.gamma * (-(1 / 2) / Real.sqrt (p.tphi - y)) := by
    filter_upwards [Iio_mem_nhds (show vbs < p.tphi by linarith)] with y hy
    have hy' : y < p.tphi := hy
    unfold P2.N
    rw [(hQd y (by linarith)).deriv]
  have hNd : HasDerivAt (fun y => p.N vds y) (p.gamma / (4 * (p.tphi - vbs) * Real.sqrt (p.tphi - vbs))) vbs := by
    have h1 := ((((hasDerivAt_const vbs (-(1 / 2) : ℝ)).div (root_path p (hasDerivAt_id vbs) hf) hr.ne').const_mul p.gamma).const_sub
      (1 + p.cfsox + p.eta1))
    refine (h1.congr_of_eventuallyEq hNe).congr_deriv ?_
    simp only [id]
    have e : p.tphi - vbs = Real.sqrt (p.tphi - vbs) * Real.sqrt (p.tphi - vbs) := (Real.mul_self_sqrt hf.le).symm
    generalize hqq : Real.sqrt (p.tphi - vbs) = q at *
    rw [e]
    field_simp
    ring
  have hT : HasDerivAt p.T (-p.eta1) vbs := by
    unfold P2.T
    exact ((((hasDerivAt_id vbs).const_sub p.tphi).const_mul p.eta1).const_add p.vbi).congr_deriv (by ring)
  have hn' := hNd.const_mul p.vt
  have hQ' := hQd vbs hf
  set q' := p.gamma * (-(1 / 2) / Real.sqrt (p.tphi - vbs)) with hq'
  set N' := p.gamma / (4 * (p.tphi - vbs) * Real.sqrt (p.tphi - vbs)) with hN'
  have hu : HasDerivAt (fun y => p.T vbs + (p.Q vds y + p.vt * p.N vds y) - p.T vbs) ((q' + p.vt * N' - p.eta1) + p.eta1 * 1) vbs :=
    (((hQ'.add hn').const_add (p.T vbs)).sub_const (p.T vbs)).congr_deriv (by ring)
  have hK := K_path p (d := fun _ => vds) (b := id) (t := vbs) h.ok h.plain hu (hasDerivAt_const _ _) (hasDerivAt_id _) hq
    (Or.inr (Or.inr rfl)) (p.uo * 1)
  have hnn : n ≠ 0 := h.n.ne'
  have hE : HasDerivAt (fun y => Real.exp ((vgs - p.T y - p.Q vds y - p.vt * p.N vds y) / (p.vt * p.N vds y))) _ vbs :=
    (((((hT.const_sub vgs).sub hQ').sub hn').div hn' hnn)).exp
  have hI : (fun y => p.I vgs vds y) =ᶠ[nhds vbs] fun y => p.K (p.T vbs + (p.Q vds y + p.vt * p.N vds y) - p.T vbs) vds (id y) *
      Real.exp ((vgs - p.T y - p.Q vds y - p.vt * p.N vds y) / (p.vt * p.N vds y)) := by
    have hc : ContinuousAt (fun y => p.Q vds y + p.vt * p.N vds y - (vgs - p.T y)) vbs :=
      (hQ'.continuousAt.add hn'.continuousAt).sub (hT.const_sub vgs).continuousAt
    filter_upwards [hc.eventually_const_lt (show 0 < p.Q vds vbs + p.vt * p.N vds vbs - (vgs - p.T vbs) by have := h.below; linarith)] with y hy
    rw [weak_I p h.sub (by linarith), add_sub_cancel_left]
    rfl
  refine ((hK.mul hE).congr_of_eventuallyEq hI).congr_deriv ?_
  have hc0 : ∀ (e : ℝ) (s : Sat2), (p.length e vds s).g = 0 ∧ (p.length e vds s).b = 0 := by
    intro e s
    unfold P2.length
    rw [if_pos h.ok.drain]
    cases hlm : p.lambda with
    | none => exact absurd hlm hl
    | some l => simp only; split <;> simp
  obtain ⟨g1, g2⟩ := grove_v p h.ok h.plain (driven (plain_nonneg p h.plain) h.ok.eta hf hq)
  have hce := length_eq p h.ok p.uo _ g2
  rw [g1, hG, add_sub_cancel_left] at hce
  have hcc : (p.length p.uo vds (p.grove (p.bulk vds vbs) u)).f = c := hce
  rw [w4, w2, w6, f4, f6]
  simp only [id, hc0, hmb, mul_zero, zero_div, sub_zero, add_zero, mul_one, add_sub_cancel_left, zero_mul, hG, sub_self]
  unfold P2.dvon P2.dxn
  simp only [hmb, s2, s3, h.sub, if_true, zero_mul, mul_zero, zero_add, add_zero]
  have hd2 : p.gamma * (1 / 2 * (-(1 / 2) / Real.sqrt (p.tphi - vbs)) / (p.tphi - vbs)) = -N' := by
    rw [hN']; field_simp
    ring
  rw [hd2, ← hq']
  have hN2 : p.gamma / (2 * (p.tphi - vbs) * Real.sqrt (p.tphi - vbs)) = 2 * N' := by rw [hN']; field_simp; ring
  rw [hN2]
  show _ = _
  have hnv : n = p.vt * p.N vds vbs := rfl
  have hN0 : p.N vds vbs ≠ 0 := fun h0 => hnn (by rw [hnv, h0, mul_zero])
  have hv0 : p.vt ≠ 0 := fun h0 => hnn (by rw [hnv, h0, zero_mul])
  rw [show p.Q vds vbs + p.vt * p.N vds vbs = u from rfl, hcc]
  simp only [hc0, Pi.sub_apply, Pi.div_apply, mul_zero, zero_div, sub_zero, add_zero]
  rw [show vgs - p.T vbs - p.Q vds vbs - p.vt * p.N vds vbs = x from rfl, show p.vt * p.N vds vbs = n from rfl,
    show min vds (vend u p.gamma (p.eta1 + 1) (p.tphi - vbs)) = z from rfl]
  have hnv' : p.vt = n / p.N vds vbs := by rw [hnv]; field_simp
  generalize p.K u vds vbs = K
  generalize Real.exp (x / n) = w
  generalize Real.sqrt (p.tphi - vbs + z) = sz
  generalize Real.sqrt (p.tphi - vbs) = sf
  rw [hnv']
  clear_value n x z c N' q'
  generalize p.N vds vbs = N at *
  clear hnv hnv'
  field_simp
  ring

/-! ## The charge -/

theorem cubes {a b : ℝ} (h0 : 0 ≤ a) (hb : 0 ≤ b) :
    3 / 2 * a * (b ^ 2 - a ^ 2) ≤ b ^ 3 - a ^ 3 ∧ b ^ 3 - a ^ 3 ≤ 3 / 2 * b * (b ^ 2 - a ^ 2) := by
  constructor
  · have : 0 ≤ (b - a) ^ 2 * (b + a / 2) := by positivity
    nlinarith
  · have : 0 ≤ (b - a) ^ 2 * (b / 2 + a) := by positivity
    nlinarith

theorem root_cube {y : ℝ} (h : 0 ≤ y) : y * Real.sqrt y = Real.sqrt y ^ 3 ∧ y = Real.sqrt y ^ 2 := by
  have := Real.sq_sqrt h
  constructor
  · rw [pow_succ, this]
  · exact this.symm

/-- the saturated current is the largest on the way -/
theorem drift_greatest {u g e f v : ℝ} (he : 0 < e) (hg : 0 ≤ g) (h : 0 < u + e * f) (hv : 0 ≤ f + v) :
    drift u g e f v ≤ drift u g e f (vend u g e f) := by
  have hc := vend_charge (g := g) he h
  have hV := (vend_root (g := g) he h).2
  unfold charge at hc
  unfold drift
  generalize vend u g e f = V at *
  obtain ⟨a1, a2⟩ := root_cube hv
  obtain ⟨b1, b2⟩ := root_cube hV.le
  rw [a1, b1]
  have hu : u = e * V + g * Real.sqrt (f + V) := by linarith
  have hk := (cubes (Real.sqrt_nonneg (f + v)) (Real.sqrt_nonneg (f + V))).2
  rw [← a2, ← b2] at hk
  have h1 := mul_le_mul_of_nonneg_left hk hg
  generalize Real.sqrt (f + V) = b at *
  generalize Real.sqrt (f + v) = a at *
  generalize f * Real.sqrt f = F
  subst hu
  nlinarith [mul_nonneg he.le (sq_nonneg (V - v))]

/-- positive up to the end, and less than without bulk charge beyond that at the source -/
theorem drift_bounds {u g e f z : ℝ} (hg : 0 ≤ g) (hf : 0 < f) (hz : 0 ≤ z) (hc : 0 ≤ charge u g e f z) :
    e / 2 * z ^ 2 ≤ drift u g e f z ∧ drift u g e f z ≤ (u - g * Real.sqrt f) * z - e / 2 * z ^ 2 := by
  unfold charge at hc
  unfold drift
  obtain ⟨a1, a2⟩ := root_cube hf.le
  obtain ⟨b1, b2⟩ := root_cube (show 0 ≤ f + z by linarith)
  rw [a1, b1]
  obtain ⟨k1, k2⟩ := cubes (Real.sqrt_nonneg f) (Real.sqrt_nonneg (f + z))
  rw [← a2, ← b2] at k1 k2
  have h1 := mul_le_mul_of_nonneg_left k1 hg
  have h2 := mul_le_mul_of_nonneg_left k2 hg
  generalize Real.sqrt (f + z) = b at *
  generalize Real.sqrt f = a at *
  constructor
  · nlinarith [mul_nonneg hc hz]
  · nlinarith

theorem end_charge {u g e f d : ℝ} (he : 0 < e) (hg : 0 ≤ g) (h : 0 < u + e * f) : 0 ≤ charge u g e f (min d (vend u g e f)) := by
  rcases eq_or_lt_of_le (min_le_right d (vend u g e f)) with hm | hm
  · rw [hm, vend_charge he h]
  · have := charge_anti (u := u) (f := f) he hg hm
    rw [vend_charge he h] at this
    exact this.le

theorem K_nonneg (p : P2) (hb : 0 ≤ p.beta) {vds vbs u : ℝ} (h : p.Ok vds vbs) (hp : p.Plain vds vbs) (hu : p.Q vds vbs ≤ u) :
    0 ≤ p.K u vds vbs := by
  have hf : 0 < p.tphi - vbs := by have := h.phi; have := h.bulk; linarith
  have hG := plain_nonneg p hp
  have h0 := driven hG h.eta hf hu
  have hV := vend_nonneg h.eta hG h0 hu
  have hd := (drift_bounds hG hf (le_min h.drain hV) (end_charge (d := vds) h.eta hG h0)).1
  have he := h.eta
  unfold P2.K
  refine div_nonneg (mul_nonneg hb (le_trans ?_ hd)) (pinch_pos (div_pos h.xwb h.len)).le
  positivity

/-- **C97, passive.**  Current flows from drain to source. -/
theorem level2_passive (p : P2) (hb : 0 ≤ p.beta) (vgs vds vbs : ℝ) (h : p.Ok vds vbs) (hp : p.Plain vds vbs)
    (hn : p.sub = true → 0 ≤ p.vt * p.N vds vbs) : 0 ≤ p.I vgs vds vbs := by
  have hm : ∀ x, 0 ≤ p.move x := by
    intro x
    have hv := h.vbp
    unfold P2.move
    cases he : p.uexp with
    | none => exact zero_le_one
    | some e =>
      simp only
      rw [he] at hv
      have := hv.resolve_left (by simp)
      split
      · exact Real.rpow_nonneg (div_nonneg this.le (by linarith)) e
      · exact zero_le_one
  unfold P2.I
  by_cases hs : p.sub = true
  · simp only [if_pos hs]
    have := hn hs
    split
    · exact mul_nonneg (K_nonneg p hb h hp (by linarith)) (Real.exp_nonneg _)
    · exact mul_nonneg (K_nonneg p hb h hp (by linarith)) (hm _)
  · simp only [if_neg hs]
    split
    · exact le_rfl
    · exact mul_nonneg (K_nonneg p hb h hp (by linarith)) (hm _)

/-! ## Where the slopes are wrong -/

/-- in weak inversion the slope with bulk voltage is too small, for every long channel with body effect (and `lambda`) -/
theorem level2_weak_wrong (p : P2) (hv : p.vmax = none) (vgs vds vbs : ℝ) (h : p.Weak vgs vds vbs) (hs : p.short = false)
    (hl : p.lambda ≠ none) (hg : 0 < p.gamma) (hb : 0 < p.beta) (ht : 0 < p.vt) (hd : 0 < vds) :
    (p.out vgs vds vbs).gmb < deriv (fun y => p.I vgs vds y) vbs := by
  have hD := level2_weak_gmb p hv vgs vds vbs h hs hl
  simp only at hD
  rw [hD.deriv]
  have hN : 0 < p.N vds vbs := by
    have := h.n
    by_contra hc
    have := mul_nonpos_of_nonneg_of_nonpos ht.le (not_lt.1 hc)
    linarith
  have hf : 0 < p.tphi - vbs := by have := h.ok.phi; have := h.ok.bulk; linarith
  have hr := Real.sqrt_pos.2 hf
  have hG : p.G vds vbs = p.gamma := by unfold P2.G; simp [hs]
  have hQ : p.Q vds vbs = p.gamma * Real.sqrt (p.tphi - vbs) := by unfold P2.Q; rw [hG]
  set n := p.vt * p.N vds vbs with hn
  have hn0 : 0 < n := h.n
  set u := p.Q vds vbs + n with hu
  set x := vgs - p.T vbs - p.Q vds vbs - n with hx
  have hx0 : x < 0 := by have := h.below; rw [hx]; linarith
  have hu0 : p.gamma * Real.sqrt (p.tphi - vbs) ≤ u := by rw [hu, hQ]; linarith
  have h0 := driven hg.le h.ok.eta hf hu0
  set V := vend u p.gamma (p.eta1 + 1) (p.tphi - vbs) with hV
  have hVp : 0 < V := by
    refine lt_of_le_of_ne (vend_nonneg h.ok.eta hg.le h0 hu0) fun hz => ?_
    have hc := vend_charge (g := p.gamma) h.ok.eta h0
    rw [← hV, ← hz] at hc
    unfold charge at hc
    simp only [mul_zero, sub_zero, add_zero] at hc
    rw [hu, hQ] at hc
    linarith
  set z := min vds V with hz
  have hz0 : 0 < z := lt_min hd hVp
  have hc := pinch_pos (a := p.left vds V) (div_pos h.ok.xwb h.ok.len)
  set c := pinch (p.xwb / p.leff) (p.left vds V) with hcd
  obtain ⟨d1, d2⟩ := drift_bounds hg.le hf hz0.le (end_charge (d := vds) h.ok.eta hg.le h0)
  have hK : p.K u vds vbs = p.beta * drift u p.gamma (p.eta1 + 1) (p.tphi - vbs) z / c := by
    unfold P2.K; rw [hG]
  have he := h.ok.eta
  have hdl : drift u p.gamma (p.eta1 + 1) (p.tphi - vbs) z < n * z := by
    have : 0 < (p.eta1 + 1) / 2 * z ^ 2 := by positivity
    have e : u - p.gamma * Real.sqrt (p.tphi - vbs) = n := by rw [hu, hQ]; ring
    rw [e] at d2
    linarith
  have hKn : 0 ≤ p.K u vds vbs := K_nonneg p hb.le h.ok h.plain (by rw [hu]; linarith)
  have hKl : p.K u vds vbs < p.beta / c * (n * z) := by
    rw [hK]
    have := mul_lt_mul_of_pos_left hdl (div_pos hb hc)
    calc p.beta * drift u p.gamma (p.eta1 + 1) (p.tphi - vbs) z / c = p.beta / c * drift u p.gamma (p.eta1 + 1) (p.tphi - vbs) z := by ring
      _ < _ := this
  have h1 : p.K u vds vbs / p.N vds vbs < p.vt * (p.beta / c * z) := by
    rw [div_lt_iff₀ hN]
    calc p.K u vds vbs < p.beta / c * (n * z) := hKl
      _ = p.vt * (p.beta / c * z) * p.N vds vbs := by rw [hn]; ring
  have h2 : p.K u vds vbs * x / (n * p.N vds vbs) ≤ 0 :=
    div_nonpos_of_nonpos_of_nonneg (mul_nonpos_of_nonneg_of_nonpos hKn hx0.le) (by positivity)
  have h3 : 0 < p.vt * (p.beta / c * z) - p.K u vds vbs / p.N vds vbs - p.K u vds vbs * x / (n * p.N vds vbs) := by linarith
  have h4 : 0 < p.gamma / (2 * (p.tphi - vbs) * Real.sqrt (p.tphi - vbs)) * Real.exp (x / n) *
      (p.vt * (p.beta / c * z) - p.K u vds vbs / p.N vds vbs - p.K u vds vbs * x / (n * p.N vds vbs)) := by positivity
  linarith

/-- shortening follows the slope of `vdsat` in proportion -/
theorem length_scale (p : P2) (hl : p.lambda = none) (e vds v g b g2 b2 : ℝ) (hd : 0 ≤ vds) (hx : 0 < p.xd) (hw : 0 < p.xwb)
    (hle : 0 < p.leff) :
    ∃ y, 0 < y ∧ (p.length e vds ⟨v, g, b, false⟩).g = g * y ∧ (p.length e vds ⟨v, g2, b2, false⟩).g = g2 * y ∧
      (p.length e vds ⟨v, g, b, false⟩).d = (p.length e vds ⟨v, g2, b2, false⟩).d ∧
      (p.length e vds ⟨v, g, b, false⟩).f = (p.length e vds ⟨v, g2, b2, false⟩).f := by
  obtain ⟨h1, h2, _⟩ := layer_path (hasDerivAt_id ((vds - v) / 4))
  simp only [id] at h1 h2
  have e1 : (1 : ℝ) + (vds - v) / 4 * ((vds - v) / 4) = 1 + ((vds - v) / 4) ^ 2 := by ring
  have hsh : ∀ g b : ℝ, p.shorten e vds ⟨v, g, b, false⟩ = (1 - p.xd * Real.sqrt ((vds - v) / 4 + Real.sqrt (1 + ((vds - v) / 4) ^ 2)) / p.leff,
      p.xd * Real.sqrt ((vds - v) / 4 + Real.sqrt (1 + ((vds - v) / 4) ^ 2)) / (p.leff * 8 * Real.sqrt (1 + ((vds - v) / 4) ^ 2))) := by
    intro g b
    unfold P2.shorten
    cases p.vmax <;> simp only [e1, if_pos h1.le]
  have hs := Real.sqrt_pos.2 h1
  unfold P2.length
  simp only [if_pos hd, hl, hsh]
  set F := 1 - p.xd * Real.sqrt ((vds - v) / 4 + Real.sqrt (1 + ((vds - v) / 4) ^ 2)) / p.leff
  set D := p.xd * Real.sqrt ((vds - v) / 4 + Real.sqrt (1 + ((vds - v) / 4) ^ 2)) / (p.leff * 8 * Real.sqrt (1 + ((vds - v) / 4) ^ 2))
    with hD
  have hD0 : 0 < D := by rw [hD]; positivity
  by_cases hc : F < p.xwb / p.leff
  · simp only [if_pos hc]
    have h3 : 0 < 2 - F * p.leff / p.xwb := by
      have : F * p.leff < p.xwb := (lt_div_iff₀ hle).1 hc
      have : F * p.leff / p.xwb < 1 := (div_lt_one hw).2 this
      linarith
    refine ⟨D * (p.xwb / (2 - F * p.leff / p.xwb) * (p.xwb / (2 - F * p.leff / p.xwb)) / (p.xwb * p.xwb)), by positivity, by ring, by ring,
      by simp, by simp⟩
  · simp only [if_neg hc]
    exact ⟨D, hD0, by simp⟩

/-- a narrow channel without body effect and without `lambda`: the slope of `vdsat` is taken as 1 (d_mos2.model:467), the transconductance
is too small -/
theorem level2_narrow_wrong (p : P2) (hv : p.vmax = none) (hsub : p.sub = false) (hx : p.uexp = none) (hl : p.lambda = none)
    (hg : p.gamma = 0) (he : 0 < p.eta1) (hb : 0 < p.beta) (hxd : 0 < p.xd) (vgs vds vbs : ℝ) (h : p.Ok vds vbs) (hd : 0 < vds)
    (ha : p.T vbs < vgs) : (p.out vgs vds vbs).gm < deriv (fun y => p.I y vds vbs) vgs := by
  have hG : ∀ x y, p.G x y = 0 := fun x y => by unfold P2.G; split <;> simp [hg]
  have hQ : ∀ x y, p.Q x y = 0 := fun x y => by unfold P2.Q; rw [hG, zero_mul]
  have hf : 0 < p.tphi - vbs := by have := h.phi; have := h.bulk; linarith
  have hη := h.eta
  set u := vgs - p.T vbs with hu
  have hu0 : 0 < u := by rw [hu]; linarith
  have h0 : 0 < u + (p.eta1 + 1) * (p.tphi - vbs) := by positivity
  have hVe : ∀ w, 0 < w → vend w 0 (p.eta1 + 1) (p.tphi - vbs) = w / (p.eta1 + 1) := by
    intro w hw
    unfold vend
    rw [sub_zero, div_pow, Real.sq_sqrt (inner_pos (g := 0) hη (by positivity)).le]
    field_simp
    ring
  have hgr : p.grove (p.bulk vds vbs) u = ⟨u / (p.eta1 + 1), 1, 0, false⟩ := by rw [grove_flat p h (hG _ _) h0, hG, hVe u hu0]
  have hVp : 0 < u / (p.eta1 + 1) := div_pos hu0 hη
  obtain ⟨y, y0, y1, y2, y3, y4⟩ := length_scale p hl p.uo vds (u / (p.eta1 + 1)) 1 0 (1 / (p.eta1 + 1)) 0 h.drain hxd h.xwb h.len
  -- what the code gives
  have hvon : p.von (p.bulk vds vbs) = p.T vbs := by rw [von_eq p h, hQ]; simp [hsub]
  have hmob : ∀ a b, p.mob a b = ⟨1, 0, 0⟩ := fun a b => by unfold P2.mob; rw [hx]
  have hout : (p.out vgs vds vbs).gm = (p.on (p.bulk vds vbs) vgs (vgs - p.T vbs)).gm := by
    unfold P2.out
    simp only [hvon, hsub, Bool.false_eq_true, if_false, if_neg (not_lt.2 ha.le)]
  set z := min vds (u / (p.eta1 + 1)) with hz
  have hz0 : 0 < z := lt_min hd hVp
  set c := p.length p.uo vds ⟨u / (p.eta1 + 1), 1, 0, false⟩ with hc
  have hcf : c.f = pinch (p.xwb / p.leff) (p.left vds (u / (p.eta1 + 1))) := length_eq p h p.uo _ rfl
  have hcp : 0 < c.f := by rw [hcf]; exact pinch_pos (div_pos h.xwb h.len)
  have hon : (p.on (p.bulk vds vbs) vgs (vgs - p.T vbs)).gm =
      p.beta / c.f * z - p.beta / c.f * drift u 0 (p.eta1 + 1) (p.tphi - vbs) z * (c.g / c.f) := by
    have hss : p.slopes (p.bulk vds vbs) p.uo u (p.vsat (p.bulk vds vbs) p.uo u) = ⟨u / (p.eta1 + 1), 1, 0, false⟩ := by
      unfold P2.vsat P2.slopes
      simp only [hv, hgr]
      rw [if_neg (not_lt.2 hVp.le)]
    have e0 : vgs - p.vbin (p.bulk vds vbs) = u := rfl
    unfold P2.on
    simp only [hmob, e0, mul_one, hss, gam_eq p h, hG]
    have e1 : (p.bulk vds vbs).vds = vds := rfl
    rw [e1, ← hc]
    unfold drift P2.eta
    by_cases hlt : u / (p.eta1 + 1) < vds
    · have hzz : z = u / (p.eta1 + 1) := min_eq_right hlt.le
      have h9 : u - (p.eta1 + 1) * (u / (p.eta1 + 1)) = 0 := by field_simp; ring
      simp only [hlt, decide_true, if_true, hzz, h9, zero_mul, mul_zero, sub_zero, fixzero_zero, add_zero, zero_div, zero_sub]
      ring
    · have hzz : z = vds := min_eq_left (not_lt.1 hlt)
      simp only [hlt, decide_false, Bool.false_eq_true, if_false, hzz, zero_mul, mul_zero, sub_zero, add_zero, zero_div, zero_sub]
      ring
  -- the slope
  have hD : HasDerivAt (fun w => p.I w vds vbs) (p.beta / c.f * z -
      p.beta / c.f * drift u 0 (p.eta1 + 1) (p.tphi - vbs) z * ((p.length p.uo vds ⟨u / (p.eta1 + 1), 1 / (p.eta1 + 1), 0, false⟩).g / c.f)) vgs := by
    have hU : HasDerivAt (fun w => w - p.T vbs) 1 vgs := (hasDerivAt_id vgs).sub_const _
    have hJ := channel_path hU (hasDerivAt_const vgs (0 : ℝ)) (hasDerivAt_const vgs (p.tphi - vbs)) (hasDerivAt_const vgs vds) hη h0 hf
      (by linarith)
    have hV := vend_path hU (hasDerivAt_const vgs (0 : ℝ)) (hasDerivAt_const vgs (p.tphi - vbs)) hη h0
    simp only [← hu] at hJ hV
    have hR : 0 < Real.sqrt ((0 : ℝ) ^ 2 + 4 * (p.eta1 + 1) * (u + (p.eta1 + 1) * (p.tphi - vbs))) := Real.sqrt_pos.2 (inner_pos hη h0)
    have hL := length_path p (g' := 1) (b' := 0) (d := fun _ => vds) (t := vgs) (vbs := vbs) h p.uo
      ⟨u / (p.eta1 + 1), 1 / (p.eta1 + 1), 0, false⟩ rfl (hasDerivAt_const _ _) hV (hVe u hu0).symm (fun _ => by
        simp only [sub_zero, mul_zero, mul_one, add_zero, zero_div]
        generalize Real.sqrt ((0 : ℝ) ^ 2 + 4 * (p.eta1 + 1) * (u + (p.eta1 + 1) * (p.tphi - vbs))) = R at *
        field_simp)
    have hne : pinch (p.xwb / p.leff) (p.left vds (vend u 0 (p.eta1 + 1) (p.tphi - vbs))) ≠ 0 :=
      (pinch_pos (div_pos h.xwb h.len)).ne'
    have hK : HasDerivAt (fun w => p.beta * drift (w - p.T vbs) 0 (p.eta1 + 1) (p.tphi - vbs)
        (min vds (vend (w - p.T vbs) 0 (p.eta1 + 1) (p.tphi - vbs))) /
        pinch (p.xwb / p.leff) (p.left vds (vend (w - p.T vbs) 0 (p.eta1 + 1) (p.tphi - vbs)))) _ vgs := (hJ.const_mul p.beta).div hL hne
    have hI : (fun w => p.I w vds vbs) =ᶠ[nhds vgs] fun w => p.beta * drift (w - p.T vbs) 0 (p.eta1 + 1) (p.tphi - vbs)
        (min vds (vend (w - p.T vbs) 0 (p.eta1 + 1) (p.tphi - vbs))) /
        pinch (p.xwb / p.leff) (p.left vds (vend (w - p.T vbs) 0 (p.eta1 + 1) (p.tphi - vbs))) := by
      filter_upwards [Ioi_mem_nhds ha] with w hw
      have hw' : p.T vbs < w := hw
      unfold P2.I P2.K P2.move
      simp only [hsub, Bool.false_eq_true, if_false, hQ, hG, hx, mul_one]
      rw [if_neg (by linarith)]
    refine (hK.congr_of_eventuallyEq hI).congr_deriv ?_
    simp only [← hu]
    rw [hVe u hu0, ← hcf, ← hz]
    simp only [mul_zero, add_zero, mul_one, sub_zero, zero_mul]
    field_simp
  rw [hD.deriv, hout, hon, y1, y2]
  have hdr : 0 < drift u 0 (p.eta1 + 1) (p.tphi - vbs) z := by
    have := (drift_bounds le_rfl hf hz0.le (by
      have := end_charge (d := vds) (g := 0) hη le_rfl h0
      rw [hVe u hu0] at this; exact this)).1
    have h5 : 0 < (p.eta1 + 1) / 2 * z ^ 2 := by positivity
    linarith
  have h6 : 1 / (p.eta1 + 1) < 1 := by rw [div_lt_one hη]; linarith
  have h7 : p.beta / c.f * drift u 0 (p.eta1 + 1) (p.tphi - vbs) z * (1 / (p.eta1 + 1) * y / c.f) <
      p.beta / c.f * drift u 0 (p.eta1 + 1) (p.tphi - vbs) z * (1 * y / c.f) := by
    refine mul_lt_mul_of_pos_left ?_ (by positivity)
    refine div_lt_div_of_pos_right ?_ hcp
    exact mul_lt_mul_of_pos_right h6 y0
  linarith

/-- a short channel without `lambda`: `vdsat` moves with the drain too (through `gamma_s`), the code leaves it out (d_mos2.model:444-463,
559): saturated, the output conductance is too large -/
theorem level2_short_wrong (p : P2) (hv : p.vmax = none) (hsub : p.sub = false) (hx : p.uexp = none) (hl : p.lambda = none)
    (hs : p.short = true) (hb : 0 < p.beta) (hg : 0 < p.gamma) (hxd : 0 < p.xd) (vgs vds vbs : ℝ) (h : p.Ok vds vbs)
    (hG : 0 < p.G vds vbs) (ha : p.Q vds vbs < vgs - p.T vbs)
    (hsat : vend (vgs - p.T vbs) (p.G vds vbs) (p.eta1 + 1) (p.tphi - vbs) < vds) :
    deriv (fun x => p.I vgs x vbs) vds < (p.out vgs vds vbs).gds := by
  have hS : p.Strong vgs vds vbs := ⟨h, Or.inl hG, by simp [hsub], by unfold P2.over; simp [hsub]; linarith, Or.inl hx⟩
  obtain ⟨_, _, o3, _, hq⟩ := strong_out p hS
  obtain ⟨f1, _, ⟨q, q1, q2, f3⟩, _⟩ := on_fields p hv h hS.plain vgs (p.over vgs vds vbs) hq
  have hm : p.mob (p.over vgs vds vbs) (p.dvon (p.bulk vds vbs)) = ⟨1, 0, 0⟩ := by unfold P2.mob; rw [hx]
  have hη := h.eta
  have hf : 0 < p.tphi - vbs := by have := h.phi; have := h.bulk; linarith
  set u := vgs - p.T vbs with hu
  have h0 := driven hG.le hη hf hq
  have hgr := (grove_eq p h hG h0).2
  have hR := (grove_eq p h hG h0).1
  set G := p.G vds vbs with hGd
  set R := Real.sqrt (G ^ 2 + 4 * (p.eta1 + 1) * (u + (p.eta1 + 1) * (p.tphi - vbs))) with hRd
  set V := vend u G (p.eta1 + 1) (p.tphi - vbs) with hV
  have hmin : min vds V = V := min_eq_right hsat.le
  have hch : charge u G (p.eta1 + 1) (p.tphi - vbs) V = 0 := vend_charge hη h0
  set k := p.bulk vds vbs with hk
  set D := -(R - G) ^ 2 / (2 * (p.eta1 + 1) ^ 2 * R) * k.m.d with hD
  -- the end of the channel moves
  have hkd : k.m.d < 0 := by
    have e1 : k.m = p.gam k.s k.b := rfl
    have s4 : k.b.r = Real.sqrt (p.tphi - vbs + vds) := (bulk_s p h).2.2.2
    have hdr := h.drain
    have hbr : 0 < k.b.r := by rw [s4]; exact Real.sqrt_pos.2 (by linarith)
    have hxj := h.xj hs
    have hle := h.len
    rw [e1]; unfold P2.gam; simp only [hs, if_true]
    have h1 : 0 < Real.sqrt (1 + 2 * k.b.r * p.xd / p.xj) := Real.sqrt_pos.2 (by positivity)
    have : 0 < p.gamma * (p.xd / (4 * p.leff * Real.sqrt (1 + 2 * k.b.r * p.xd / p.xj) * k.b.r)) := by positivity
    linarith
  have hRG : 0 < R - G := by
    have : G < R := by
      rw [hRd]
      refine Real.lt_sqrt_of_sq_lt ?_
      have : 0 < 4 * (p.eta1 + 1) * (u + (p.eta1 + 1) * (p.tphi - vbs)) := by positivity
      linarith
    linarith
  have hDp : 0 < D := by
    rw [hD]
    have h1 : 0 < (R - G) ^ 2 / (2 * (p.eta1 + 1) ^ 2 * R) := by positivity
    rw [neg_div]
    nlinarith
  obtain ⟨y, y0, y1, _, y3, y4⟩ := length_scale p hl p.uo vds V D 0 ((R - G) / ((p.eta1 + 1) * R))
    (-(R - G) ^ 2 / (2 * (p.eta1 + 1) ^ 2 * R) * k.m.b + G / R + p.eta1 * ((R - G) / ((p.eta1 + 1) * R))) h.drain hxd h.xwb h.len
  rw [← hgr] at y3 y4
  -- the slope
  have hU : HasDerivAt (fun _ : ℝ => u) 0 vds := hasDerivAt_const _ _
  have hGp := G_path p (d := id) (b := fun _ => vbs) (t := vds) h (hasDerivAt_id _) (hasDerivAt_const _ _)
  have hJ := channel_path hU hGp (hasDerivAt_const vds (p.tphi - vbs)) (hasDerivAt_id vds) hη h0 hf
    (by have := h.drain; simp only [id]; linarith)
  have hVp := vend_path hU hGp (hasDerivAt_const vds (p.tphi - vbs)) hη h0
  simp only [id, ← hGd, ← hV, ← hRd, ← hk, hmin, hch] at hJ hVp
  have hL := length_path p (g' := 1) (b' := 0) (d := id) (t := vds) (vbs := vbs) h p.uo ⟨V, D, 0, false⟩ rfl (hasDerivAt_id _) hVp hV
    (fun _ => by rw [hD]; simp only; ring)
  have hc := length_eq p h p.uo (p.grove k u) (by rw [hgr])
  rw [hgr] at hc
  simp only at hc
  rw [← hgr] at hc
  simp only [id, ← hGd, ← hV] at hL
  set c := p.length p.uo vds (p.grove k u) with hcd
  have hcp : 0 < c.f := by rw [hc]; exact pinch_pos (div_pos h.xwb h.len)
  have hne : pinch (p.xwb / p.leff) (p.left vds V) ≠ 0 := (pinch_pos (div_pos h.xwb h.len)).ne'
  have hK : HasDerivAt (fun x => p.K u x vbs) _ vds := (hJ.const_mul p.beta).div hL hne
  have hov : ContinuousAt (fun x => p.over vgs x vbs) vds := by
    have hQ := (Q_path p (d := id) (b := fun _ => vbs) (t := vds) h (hasDerivAt_id _) (hasDerivAt_const _ _)).continuousAt
    have e : (fun x => p.over vgs x vbs) = fun x => vgs - p.T vbs - p.Q x vbs := by
      funext x; unfold P2.over; simp [hsub]
    rw [e]
    exact continuousAt_const.sub hQ
  have hI : (fun x => p.I vgs x vbs) =ᶠ[nhds vds] fun x => p.K u x vbs := by
    filter_upwards [hov.eventually_const_lt hS.above] with x hx'
    rw [strong_I p (le_of_lt hx')]
    unfold P2.move; rw [hx]; simp [hu]
  rw [(hK.congr_of_eventuallyEq hI).deriv, o3, f3, hm]
  simp only [mul_one, ← hk, ← hGd, ← hV, hmin, hch, mul_zero, ← hcd] at q1 q2 f1 ⊢
  have hq0 : q = 0 := q2 (Or.inr trivial)
  rw [hq0, f1, hm, y1, y3, ← hc]
  simp only [mul_one, ← hcd]
  have hVn : 0 < V := by
    refine lt_of_le_of_ne (vend_nonneg hη hG.le h0 hq) fun hz => ?_
    rw [← hz] at hch
    unfold charge at hch
    simp only [mul_zero, sub_zero, add_zero] at hch
    have : p.Q vds vbs = G * Real.sqrt (p.tphi - vbs) := rfl
    rw [this] at ha
    linarith
  have hdr : 0 < drift u G (p.eta1 + 1) (p.tphi - vbs) V := by
    have := (drift_bounds hG.le hf hVn.le hch.ge).1
    have h5 : 0 < (p.eta1 + 1) / 2 * V ^ 2 := by positivity
    linarith
  have hgain : 0 < p.beta * drift u G (p.eta1 + 1) (p.tphi - vbs) V * (D * y) / c.f ^ 2 := by positivity
  rw [← sub_pos]
  refine lt_of_lt_of_eq hgain ?_
  generalize (p.tphi - vbs + V) * Real.sqrt (p.tphi - vbs + V) - (p.tphi - vbs) * Real.sqrt (p.tphi - vbs) = B
  have := hcp.ne'
  field_simp
  ring

/-! ## The device -/

theorem K_zero (p : P2) {vbs u : ℝ} (h : p.Ok 0 vbs) (hp : p.Plain 0 vbs) (hu : p.Q 0 vbs ≤ u) : p.K u 0 vbs = 0 := by
  have hf : 0 < p.tphi - vbs := by have := h.phi; have := h.bulk; linarith
  have hG := plain_nonneg p hp
  have hV := vend_nonneg h.eta hG (driven hG h.eta hf hu) hu
  unfold P2.K
  simp only [min_eq_left hV]
  unfold drift
  simp

theorem I2_zero (p : P2) (vgs vbs : ℝ) (h : p.Ok 0 vbs) (hp : p.Plain 0 vbs) (hn : p.sub = true → 0 ≤ p.vt * p.N 0 vbs) :
    p.I vgs 0 vbs = 0 := by
  unfold P2.I
  by_cases hs : p.sub = true
  · simp only [if_pos hs]
    have := hn hs
    split
    · rw [K_zero p h hp (by linarith), zero_mul]
    · rw [K_zero p h hp (by linarith), zero_mul]
  · simp only [if_neg hs]
    split
    · rfl
    · rw [K_zero p h hp (by linarith), zero_mul]

/-- current of the device from drain to source -/
noncomputable def P2.flow (p : P2) (pol : ℝ) (v : Nodes) : ℝ :=
  if 0 ≤ pol * (v.d - v.s) then pol * p.I (pol * (v.g - v.s)) (pol * (v.d - v.s)) (pol * (v.b - v.s))
  else -pol * p.I (pol * (v.g - v.d)) (pol * (v.s - v.d)) (pol * (v.b - v.d))

/-- **C97, from any state.**  For a long channel, with node voltages held, after finitely many iterations the current loaded is, and stays,
that of the law. -/
theorem level2_device (p : P2) (hv : p.vmax = none) (hs : p.short = false) (h : ∀ vds vbs, 0 ≤ vds → vbs ≤ 0 → p.Ok vds vbs)
    (hpl : ∀ vds vbs, p.Plain vds vbs) (hn : ∀ vds vbs, vbs ≤ 0 → p.sub = true → 0 ≤ p.vt * p.N vds vbs) (c : Cfg) (hc : c.E = p.out)
    (hp : c.pol = 1 ∨ c.pol = -1) (v : Nodes) (h1 : c.pol * (v.b - v.s) ≤ 0) (h2 : c.pol * (v.b - v.d) ≤ 0) (s : St) :
    ∃ N, ∀ n, N ≤ n → ((St.doTr c false v)^[n] s).iDS v = p.flow c.pol v := by
  have hm : ∀ d b, (p.bulk d b).m = ⟨p.gamma, 0, 0, 0⟩ := fun d b => by
    have e1 : (p.bulk d b).m = p.gam (p.bulk d b).s (p.bulk d b).b := rfl
    rw [e1]; unfold P2.gam; simp [hs]
  obtain ⟨N, hN⟩ := settles c v (fun b => p.von (p.bulk 0 b)) (by
    intro g d b
    rw [hc]
    have hth : p.von (p.bulk d b) = p.von (p.bulk 0 b) := by
      unfold P2.von P2.xn
      rw [hm, hm]
      rfl
    rw [← hth]
    unfold P2.out
    simp only
    split <;> split <;> rfl) s
  refine ⟨N, fun n hn' => ?_⟩
  have hst := hN n hn'
  generalize (St.doTr c false v)^[n] s = st at hst
  have hB : effVbs c v st.reversed ≤ 0 := by
    unfold effVbs; split
    · exact h2
    · exact h1
  rw [settled_flow c v st hst hp, max_eq_right hB, mul_zero, add_zero, (settled_out c v st hst).2.1]
  obtain ⟨hd0, hd, hg, hb, _⟩ := hst
  rw [hc, hd, hg, hb, min_eq_left hB]
  rw [(level2_current p hv _ _ _ (h _ _ hd0 hB) (hpl _ _) (hn _ _ hB)).2.1]
  unfold P2.flow
  cases hr : st.reversed
  · rw [hr] at hd0
    simp only [effVds, effVgs, effVbs, Bool.false_eq_true, if_false] at hd0 ⊢
    rw [if_pos hd0]; ring
  · rw [hr] at hd0
    simp only [effVds, effVgs, effVbs, if_true] at hd0 ⊢
    by_cases h' : 0 ≤ c.pol * (v.d - v.s)
    · have e0 : c.pol * (v.s - v.d) = 0 := by nlinarith
      have e1 : c.pol * (v.d - v.s) = 0 := by linarith
      rw [if_pos h', e0, e1, I2_zero p _ _ (h _ _ le_rfl h2) (hpl _ _) (hn _ _ h2), I2_zero p _ _ (h _ _ le_rfl h1) (hpl _ _) (hn _ _ h1)]
      ring
    · rw [if_neg h']; ring

/-! ## Cases -/

/-- a device for the examples: a narrow channel, half a volt of body effect per root -/
def demo2 (gamma : ℝ) (short sub : Bool) (lambda : Option ℝ) : P2 where
  gamma := gamma
  xd := 1
  xj := 1
  xwb := 1
  neff := 1
  vbp := 1
  cfsox := 0
  short := short
  sub := sub
  lambda := lambda
  vmax := none
  uexp := none
  leff := 100
  eta1 := 1
  tphi := 1
  vbi := 0
  vt := 1
  uo := 1
  beta := 1
  alt := false
  tol := 0

theorem demo2_ok (gamma : ℝ) (short sub : Bool) (lambda : Option ℝ) {vds vbs : ℝ} (hd : 0 ≤ vds) (hb : vbs ≤ 0) :
    (demo2 gamma short sub lambda).Ok vds vbs where
  phi := by norm_num [demo2]
  len := by norm_num [demo2]
  eta := by norm_num [demo2]
  xwb := by norm_num [demo2]
  xd := by norm_num [demo2]
  xj := by norm_num [demo2]
  vbp := Or.inl rfl
  bulk := hb
  drain := hd

theorem demo2_long (gamma : ℝ) (sub : Bool) (lambda : Option ℝ) (vds vbs : ℝ) : (demo2 gamma false sub lambda).G vds vbs = gamma := by
  simp [P2.G, demo2]

theorem four_root : Real.sqrt (1 - -3 : ℝ) = 2 := by
  rw [show (1 - -3 : ℝ) = 2 ^ 2 by norm_num]; exact Real.sqrt_sq (by norm_num)

theorem demo2_n (lambda : Option ℝ) : (demo2 4 false true lambda).N 5 (-3) = 3 := by
  rw [← N2_eq _ (demo2_ok 4 false true lambda (by norm_num) (by norm_num))]
  have e1 : ∀ d b, ((demo2 4 false true lambda).bulk d b).m = ⟨4, 0, 0, 0⟩ := fun d b => by
    have e1 : ((demo2 4 false true lambda).bulk d b).m = (demo2 4 false true lambda).gam ((demo2 4 false true lambda).bulk d b).s
      ((demo2 4 false true lambda).bulk d b).b := rfl
    rw [e1]; unfold P2.gam; simp [demo2]
  obtain ⟨s1, s2, _, _⟩ := bulk_s _ (demo2_ok 4 false true lambda (show (0 : ℝ) ≤ 5 by norm_num) (show (-3 : ℝ) ≤ 0 by norm_num))
  unfold P2.xn
  rw [e1, s1, s2]
  simp only [demo2]
  rw [four_root]; norm_num

theorem demo2_strong : (demo2 4 false false none).Strong 20 5 (-3) where
  ok := demo2_ok _ _ _ _ (by norm_num) (by norm_num)
  plain := Or.inl (by rw [demo2_long]; norm_num)
  n := by simp [demo2]
  above := by
    unfold P2.over P2.Q P2.T
    rw [demo2_long]
    simp only [demo2]
    rw [four_root]; norm_num
  smooth := Or.inl rfl

theorem demo2_weak (lambda : Option ℝ) : (demo2 4 false true lambda).Weak 10 5 (-3) where
  ok := demo2_ok _ _ _ _ (by norm_num) (by norm_num)
  plain := Or.inl (by rw [demo2_long]; norm_num)
  sub := rfl
  n := by rw [demo2_n]; norm_num [demo2]
  below := by
    rw [demo2_n]
    unfold P2.Q P2.T
    rw [demo2_long]
    simp only [demo2]
    rw [four_root]; norm_num

-- above threshold
example : (demo2 4 false false none).eval 20 5 (-3) = some ((demo2 4 false false none).out 20 5 (-3)) :=
  (level2_current _ rfl 20 5 (-3) demo2_strong.ok demo2_strong.plain demo2_strong.n).1
example := level2_gm _ rfl 20 5 (-3) demo2_strong
example := level2_gds _ rfl 20 5 (-3) demo2_strong (Or.inl rfl)
example := level2_gmb _ rfl 20 5 (-3) demo2_strong (Or.inl rfl)
-- below
example := level2_weak_gm _ rfl 10 5 (-3) (demo2_weak none)
example := level2_weak_gds _ rfl 10 5 (-3) (demo2_weak none) rfl
example := level2_weak_gmb _ rfl 10 5 (-3) (demo2_weak (some 0)) rfl (by simp [demo2])
example := level2_weak_wrong _ rfl 10 5 (-3) (demo2_weak (some 0)) rfl (by simp [demo2]) (by norm_num [demo2]) (by norm_num [demo2])
  (by norm_num [demo2]) (by norm_num)
example := level2_passive _ (by norm_num [demo2]) 10 5 (-3) (demo2_weak none).ok (demo2_weak none).plain (fun _ => (demo2_weak none).n.le)
-- narrow, without body effect
example := level2_narrow_wrong (demo2 0 false false none) rfl rfl rfl rfl rfl (by norm_num [demo2]) (by norm_num [demo2]) (by norm_num [demo2])
  20 5 (-3) (demo2_ok _ _ _ _ (by norm_num) (by norm_num)) (by norm_num) (by norm_num [demo2, P2.T])

theorem demo2_short : 0 < (demo2 1 true false none).G 40 (-3) ∧ (demo2 1 true false none).G 40 (-3) ≤ 1 := by
  have h : ∀ v : ℝ, -43 ≤ v → v ≤ 0 → 0 ≤ (demo2 1 true false none).taken v ∧ (demo2 1 true false none).taken v ≤ 1 / 4 := by
    intro v hv h0
    unfold P2.taken
    simp only [demo2]
    have a : Real.sqrt (1 - v) ≤ 7 := Real.sqrt_le_iff.2 ⟨by norm_num, by linarith⟩
    have b : Real.sqrt (1 + 2 * 1 / 1 * Real.sqrt (1 - v)) ≤ 4 := Real.sqrt_le_iff.2 ⟨by norm_num, by linarith⟩
    have c : 1 ≤ Real.sqrt (1 + 2 * 1 / 1 * Real.sqrt (1 - v)) := Real.one_le_sqrt.2 (by have := Real.sqrt_nonneg (1 - v); linarith)
    constructor <;> linarith
  obtain ⟨a1, a2⟩ := h (-3) (by norm_num) (by norm_num)
  obtain ⟨b1, b2⟩ := h (-3 - 40) (by norm_num) (by norm_num)
  have e : (demo2 1 true false none).G 40 (-3) = 1 - (demo2 1 true false none).taken (-3) - (demo2 1 true false none).taken (-3 - 40) := by
    unfold P2.G; simp [demo2]
  rw [e]
  generalize (demo2 1 true false none).taken (-3 - 40) = x at *
  generalize (demo2 1 true false none).taken (-3) = y at *
  constructor <;> linarith

-- short
example : deriv (fun x => (demo2 1 true false none).I 20 x (-3)) 40 < ((demo2 1 true false none).out 20 40 (-3)).gds := by
  obtain ⟨h1, h2⟩ := demo2_short
  have hT : (demo2 1 true false none).T (-3) = 4 := by norm_num [P2.T, demo2]
  refine level2_short_wrong _ rfl rfl rfl rfl rfl (by norm_num [demo2]) (by norm_num [demo2]) (by norm_num [demo2]) 20 40 (-3)
    (demo2_ok _ _ _ _ (by norm_num) (by norm_num)) h1 ?_ ?_
  · have : (demo2 1 true false none).Q 40 (-3) = (demo2 1 true false none).G 40 (-3) * 2 := by
      unfold P2.Q; rw [← four_root]; rfl
    rw [this, hT]; linarith
  · rw [hT]
    have hc := vend_charge (u := 16) (g := (demo2 1 true false none).G 40 (-3)) (e := 2) (f := 4) (by norm_num) (by norm_num)
    unfold charge at hc
    have hs := Real.sqrt_nonneg (4 + vend 16 ((demo2 1 true false none).G 40 (-3)) 2 4)
    have e : vend (20 - 4) ((demo2 1 true false none).G 40 (-3)) ((demo2 1 true false none).eta1 + 1) ((demo2 1 true false none).tphi - -3) =
        vend 16 ((demo2 1 true false none).G 40 (-3)) 2 4 := by norm_num [demo2]
    rw [e]
    nlinarith [mul_nonneg h1.le hs]

-- the device: a p channel, reversed
example (s : St) (c : Cfg) (hc : c.E = (demo2 4 false true (some 0)).out) (hp : c.pol = -1) :
    ∃ N, ∀ n, N ≤ n → ((St.doTr c false ⟨-1, -5, 2, 3⟩)^[n] s).iDS ⟨-1, -5, 2, 3⟩ = (demo2 4 false true (some 0)).flow c.pol ⟨-1, -5, 2, 3⟩ := by
  refine level2_device _ rfl rfl (fun _ _ h1 h2 => demo2_ok _ _ _ _ h1 h2) (fun _ _ => Or.inl (by rw [demo2_long]; norm_num)) ?_ c hc
    (Or.inr hp) _ (by rw [hp]; norm_num) (by rw [hp]; norm_num) s
  intro vds vbs hb _
  have hG : ∀ x y, (demo2 4 false true (some 0)).G x y = 4 := fun x y => demo2_long _ _ _ x y
  have hf : (0 : ℝ) < (demo2 4 false true (some 0)).tphi - vbs := by simp only [demo2]; linarith
  have hd := (root_path (demo2 4 false true (some 0)) (hasDerivAt_id vbs) hf).const_mul 4
  have e : (demo2 4 false true (some 0)).Q vds = fun x => 4 * Real.sqrt ((demo2 4 false true (some 0)).tphi - id x) := by
    funext x; unfold P2.Q; rw [hG]; rfl
  have hs := Real.sqrt_pos.2 hf
  unfold P2.N
  rw [e, hd.deriv]
  have : 0 ≤ 1 / 2 / Real.sqrt ((demo2 4 false true (some 0)).tphi - id vbs) := by simp only [id]; positivity
  have e2 : 4 * (-(1 / 2) / Real.sqrt ((demo2 4 false true (some 0)).tphi - id vbs) * 1) =
    -4 * (1 / 2 / Real.sqrt ((demo2 4 false true (some 0)).tphi - id vbs)) := by ring
  rw [e2]
  have e3 : (demo2 4 false true (some 0)).vt = 1 ∧ (demo2 4 false true (some 0)).cfsox = 0 ∧ (demo2 4 false true (some 0)).eta1 = 1 := ⟨rfl, rfl, rfl⟩
  rw [e3.1, e3.2.1, e3.2.2]
  linarith

end Gnucap.Mos
