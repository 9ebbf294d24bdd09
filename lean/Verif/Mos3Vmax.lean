import Verif.Mos3Fwd

/-!
# Mosfet, level 3: velocity saturation with channel shortening (C90)
-/
set_option linter.unusedSimpArgs false
namespace Gnucap.Mos

/-! ## Specification -/

/-- the channel with its end at `x`, velocity saturating at `c` -/
noncomputable def P3.till (p : P3) (vm u f x : ℝ) : ℝ :=
  p.beta / (1 + p.theta * u) * ((u - (1 + f) / 2 * x) * x) / (1 + x / p.crit vm u)

/-- the field at the end of the channel, at `x` -/
noncomputable def P3.field (p : P3) (vm u x : ℝ) : ℝ := p.crit vm u * (p.crit vm u + x) / (p.leff * x)

/-- the length of what is beyond it: the positive root of `z² + alpha field z = kappa alpha (vds - x)` -/
noncomputable def P3.beyond (p : P3) (vm u x vds : ℝ) : ℝ :=
  Real.sqrt ((p.alpha / 2 * p.field vm u x) ^ 2 + p.kappa * p.alpha * (vds - x)) - p.alpha / 2 * p.field vm u x

noncomputable def P3.chanS (p : P3) (vm u f x vds : ℝ) : ℝ :=
  p.till vm u f x / (1 - squeeze p.leff (p.beyond vm u x vds) / p.leff)

theorem beyond_root (p : P3) (vm u x vds : ℝ) (h : 0 ≤ p.kappa * p.alpha * (vds - x)) :
    p.beyond vm u x vds ^ 2 + p.alpha * p.field vm u x * p.beyond vm u x vds = p.kappa * p.alpha * (vds - x) := by
  unfold P3.beyond
  have := Real.sq_sqrt (show 0 ≤ (p.alpha / 2 * p.field vm u x) ^ 2 + p.kappa * p.alpha * (vds - x) by positivity)
  linear_combination this

/-! ## The code -/

theorem cur_vmax (p : P3) (b : Body) (vm : ℝ) (hv : p.vmax = some vm) (hs : p.sigma = 0) (vgsx vds x : ℝ) :
    let u := vgsx - p.vthAt b vds
    let fg := 1 / (p.theta * u + 1)
    let fd := 1 / (x * (1 / p.crit vm u) + 1)
    let J := (u - (b.fbody + 1) * (1 / 2) * x) * x
    let ar := fd * fd * x * (1 / p.crit vm u) * (p.theta * u + 1)
    p.cur b (p.drive b vgsx vds) (p.satv b (p.drive b vgsx vds)) x =
      ⟨p.beta * fg * J * fd,
       (p.beta * fg * x - p.theta * fg * fg * (p.beta * J)) * fd + p.theta * fg * fg * ar * (p.beta * fg * J),
       p.beta * fg * (u - (b.fbody + 1) * x) * fd - fd * fd * (1 / p.crit vm u) * (p.beta * fg * J),
       p.beta * fg * ((-b.dqb - b.dfbody * (1 / 2) * x) * x) * fd - p.theta * fg * fg * b.dqb * ar * (p.beta * fg * J),
       fd, p.theta * fg * fg * ar, -(fd * fd * (1 / p.crit vm u)), -(p.theta * fg * fg * b.dqb * ar)⟩ := by
  intro u fg fd J ar
  obtain ⟨s1, s2⟩ := satV3 p b vm hv vgsx vds
  unfold P3.cur
  simp only [hv, s2]
  unfold P3.drive
  simp only [hs]
  rw [show vgsx - p.vthAt b vds = u from rfl, show 1 / (p.theta * u + 1) = fg from rfl, show 1 / (x * (1 / p.crit vm u) + 1) = fd from rfl]
  congr 1 <;> ring

theorem emax_slope (I l e fd m g F : ℝ) {G : ℝ} (hI : I ≠ 0) (hl : l ≠ 0) (he : e ≠ 0) (hf : 1 - fd ≠ 0) :
    e / I * g - e / (I / (l * e)) * (I / (l * e) / I * g - I / (l * e) / (1 - fd) * F + I / (l * e) * m * G) =
      e * (F / (1 - fd) - m * G) := by
  field_simp
  ring

/-- shortening, as long as the saturation conductance is not at its floor -/
theorem shorten_vmax (p : P3) (b : Body) (vm : ℝ) (hv : p.vmax = some vm) (hs : p.sigma = 0) (hl : 0 < p.leff) (vgsx vds x : ℝ)
    (hm : 0 < 1 + p.theta * (vgsx - p.vthAt b vds)) (hc : 0 < p.crit vm (vgsx - p.vthAt b vds)) (hx : 0 < x)
    (hJ : 0 < p.beta * ((vgsx - p.vthAt b vds - (1 + b.fbody) / 2 * x) * x))
    (hx' : (p.satv b (p.drive b vgsx vds)).vdsat = x)
    (hfl : 1 / 10 ^ 12 ≤ p.till vm (vgsx - p.vthAt b vds) b.fbody x / (p.leff * p.field vm (vgsx - p.vthAt b vds) x)) :
    let u := vgsx - p.vthAt b vds
    let e := p.field vm u x
    let m := 1 + p.theta * u
    let fd := 1 / (1 + x / p.crit vm u)
    let r := Real.sqrt ((p.alpha / 2 * e) ^ 2 + p.kappa * p.alpha * (vds - x))
    let de := (p.alpha / 2 * e / r - 1) * (p.alpha / 2)
    let k := p.kappa * p.alpha / (r + r)
    p.shorten (p.drive b vgsx vds) (p.satv b (p.drive b vgsx vds))
        (p.cur b (p.drive b vgsx vds) (p.satv b (p.drive b vgsx vds)) x) vds =
      ⟨p.beyond vm u x vds, k, de * (e * (p.theta / m) * (1 + fd)), de * (-(e * fd / x)) - k,
        -b.dqb * (de * (e * (p.theta / m) * (1 + fd)))⟩ := by
  intro u e m fd r de k
  have hcur := cur_vmax p b vm hv hs vgsx vds x
  obtain ⟨s1, s2⟩ := satV3 p b vm hv vgsx vds
  have hfd : 1 / (x * (1 / p.crit vm u) + 1) = fd := by simp only [fd]; rw [mul_one_div, add_comm]
  have hmm : p.theta * u + 1 = m := by simp only [m]; ring
  simp only at hcur
  rw [show vgsx - p.vthAt b vds = u from rfl, hfd, hmm] at hcur
  rw [show vgsx - p.vthAt b vds = u from rfl] at hm hc hJ hfl
  rw [show 1 + p.theta * u = m from rfl] at hm
  have hfg : (p.drive b vgsx vds).fgG = -(p.theta * (1 / m) * (1 / m)) := by
    unfold P3.drive; simp only; rw [show vgsx - p.vthAt b vds = u from rfl, hmm]; ring
  have hfgD : (p.drive b vgsx vds).fgD = 0 := by
    unfold P3.drive; simp only [hs]; ring
  have hfgB : (p.drive b vgsx vds).fgB = p.theta * (1 / m) * (1 / m) * b.dqb := by
    unfold P3.drive; simp only; rw [show vgsx - p.vthAt b vds = u from rfl, hmm]; ring
  have honfg : (p.drive b vgsx vds).onfg = m := by
    unfold P3.drive; simp only; rw [show vgsx - p.vthAt b vds = u from rfl, hmm]
  have hfd0 : 0 < fd := by simp only [fd]; positivity
  have hfd1 : fd * (p.crit vm u + x) = p.crit vm u := by
    simp only [fd]; field_simp
  set c := p.crit vm u with hcdef
  have hi0 : 0 < p.beta * (1 / m) * ((u - (b.fbody + 1) * (1 / 2) * x) * x) * fd := by
    have : p.beta * (1 / m) * ((u - (b.fbody + 1) * (1 / 2) * x) * x) * fd = p.beta * ((u - (1 + b.fbody) / 2 * x) * x) * (fd / m) := by ring
    rw [this]; positivity
  have hill : p.till vm u b.fbody x = p.beta * (1 / m) * ((u - (b.fbody + 1) * (1 / 2) * x) * x) * fd := by
    unfold P3.till
    simp only [fd, m]
    rw [← hcdef]
    ring
  have hee : e = c * (c + x) / (p.leff * x) := rfl
  have hle : p.leff * e = c * (c + x) / x := by rw [hee]; field_simp
  have h1fd : 1 - fd = x / (c + x) := by
    have : c + x ≠ 0 := by positivity
    field_simp; linarith
  generalize hI : p.beta * (1 / m) * ((u - (b.fbody + 1) * (1 / 2) * x) * x) * fd = I at *
  have hgd : I * (1 - fd) * (1 / c) = I / (p.leff * e) := by
    rw [h1fd, hle]
    have : c + x ≠ 0 := by positivity
    field_simp
  have hmax : max (1 / 10 ^ 12) (I * (1 - fd) * (1 / c)) = I / (p.leff * e) := by
    rw [hgd]; rw [hill] at hfl; exact max_eq_right hfl
  have he0 : 0 < e := by rw [hee]; positivity
  have hfdx : fd * fd * x * (1 / c) = fd * (1 - fd) := by
    have : c + x ≠ 0 := by positivity
    rw [h1fd]
    have h2 : fd = c / (c + x) := by field_simp; linarith
    rw [h2]; field_simp
  have hem : I / (p.leff * (I / (p.leff * e))) = e := by
    have := hi0.ne'
    field_simp
  have h1 : 0 < 1 - fd := by rw [h1fd]; positivity
  have har : fd * fd * x * (1 / c) * m = fd * (1 - fd) * m := by rw [hfdx]
  unfold P3.shorten
  simp only [hv, hcur, s2, ← hcdef]
  rw [hmax, hx', hem, hfg, hfgD, hfgB, honfg, har]
  have er : Real.sqrt (e * (1 / 2) * p.alpha * (e * (1 / 2) * p.alpha) + p.kappa * p.alpha * (vds - x)) = r := by
    simp only [r]; congr 1; ring
  rw [er]
  have hfx : fd * fd * (1 / c) = fd * (1 - fd) / x := by
    rw [← hfdx]; field_simp
  rw [hfx]
  have hm0 := hm.ne'
  have h10 := h1.ne'
  have hxx := hx.ne'
  rw [emax_slope _ _ _ _ _ _ _ hi0.ne' hl.ne' he0.ne' h10, emax_slope _ _ _ _ _ _ _ hi0.ne' hl.ne' he0.ne' h10,
    emax_slope _ _ _ _ _ _ _ hi0.ne' hl.ne' he0.ne' h10]
  have eg : p.theta * (1 / m) * (1 / m) * (fd * (1 - fd) * m) / (1 - fd) - m * -(p.theta * (1 / m) * (1 / m)) = p.theta / m * (1 + fd) := by
    field_simp
    ring
  have ed : -(fd * (1 - fd) / x) / (1 - fd) - m * 0 = -(fd / x) := by
    field_simp
    ring
  have eb : -(p.theta * (1 / m) * (1 / m) * b.dqb * (fd * (1 - fd) * m)) / (1 - fd) - m * (p.theta * (1 / m) * (1 / m) * b.dqb) =
      -b.dqb * (p.theta / m * (1 + fd)) := by
    field_simp
    ring
  rw [eg, ed, eb]
  have ea : e * (1 / 2) * p.alpha = p.alpha / 2 * e := by ring
  rw [ea]
  congr 1 <;> simp only [de, k] <;> ring

/-- the device in saturation, shortened -/
theorem on_vmax_short (p : P3) (b : Body) (vm : ℝ) (hv : p.vmax = some vm) (hs : p.sigma = 0) (hl : 0 < p.leff) (ha : p.alpha ≠ 0)
    (hk : 0 ≤ p.kappa * p.alpha) (vgsx vds : ℝ)
    (hm : 0 < 1 + p.theta * (vgsx - p.vthAt b vds)) (hc : 0 < p.crit vm (vgsx - p.vthAt b vds))
    (hx : 0 < p.vsat vm (vgsx - p.vthAt b vds) b.fbody) (hsat : p.vsat vm (vgsx - p.vthAt b vds) b.fbody < vds)
    (hJ : 0 < p.beta * ((vgsx - p.vthAt b vds - (1 + b.fbody) / 2 * p.vsat vm (vgsx - p.vthAt b vds) b.fbody) *
      p.vsat vm (vgsx - p.vthAt b vds) b.fbody))
    (hfl : 1 / 10 ^ 12 ≤ p.till vm (vgsx - p.vthAt b vds) b.fbody (p.vsat vm (vgsx - p.vthAt b vds) b.fbody) /
      (p.leff * p.field vm (vgsx - p.vthAt b vds) (p.vsat vm (vgsx - p.vthAt b vds) b.fbody))) :
    let u := vgsx - p.vthAt b vds
    let x := p.vsat vm u b.fbody
    let m := 1 + p.theta * u
    let e := p.field vm u x
    let fd := 1 / (1 + x / p.crit vm u)
    let I := p.till vm u b.fbody x
    let r := Real.sqrt ((p.alpha / 2 * e) ^ 2 + p.kappa * p.alpha * (vds - x))
    let de := (p.alpha / 2 * e / r - 1) * (p.alpha / 2)
    let k := p.kappa * p.alpha / (r + r)
    let z := p.beyond vm u x vds
    let lf := 1 / (1 - squeeze p.leff z / p.leff)
    let S := I * lf / (p.leff - squeeze p.leff z) * squeezeSlope p.leff z
    let cx := p.beta / m * (u - (1 + b.fbody) * x) * fd - I * fd / p.crit vm u
    let cu := p.beta / m * x * fd - I * p.theta / m * fd
    let o := p.on b vgsx vds
    o.ids = p.chanS vm u b.fbody x vds ∧ o.gds0 = cx * lf + S * (de * (-(e * fd / x)) - k) ∧
    o.gm = cu * lf + S * (de * (e * (p.theta / m) * (1 + fd))) + o.gds0 * (p.satv b (p.drive b vgsx vds)).g ∧
    o.gds = S * k ∧
    o.gmb = (-b.dqb * cu - b.dfbody / 2 * (p.beta / m) * x ^ 2 * fd - p.theta / m * b.dqb * I) * lf -
      b.dqb * (S * (de * (e * (p.theta / m) * (1 + fd)))) + o.gds0 * (p.satv b (p.drive b vgsx vds)).b := by
  intro u x m e fd I r de k z lf S cx cu o
  obtain ⟨s1, s2⟩ := satV3 p b vm hv vgsx vds
  have hsh := shorten_vmax p b vm hv hs hl vgsx vds x hm hc hx hJ s1 hfl
  have hcur := cur_vmax p b vm hv hs vgsx vds x
  have hfd : 1 / (x * (1 / p.crit vm u) + 1) = fd := by simp only [fd]; rw [mul_one_div, add_comm]
  have hmm : p.theta * u + 1 = m := by simp only [m]; ring
  simp only at hcur hsh
  rw [show vgsx - p.vthAt b vds = u from rfl, hfd, hmm] at hcur
  have hz : 0 ≤ p.beyond vm u x vds := by
    unfold P3.beyond
    rw [sub_nonneg]
    refine Real.le_sqrt_of_sq_le ?_
    have : 0 ≤ p.kappa * p.alpha * (vds - x) := mul_nonneg hk (by have : x < vds := hsat; linarith)
    linarith
  have hsd : (p.satv b (p.drive b vgsx vds)).d = 0 := by unfold P3.satv; simp only [hs]; ring
  have hxx : x ≠ 0 := hx.ne'
  have hon : o = p.on b vgsx vds := rfl
  have hI : p.beta * (1 / m) * ((u - (b.fbody + 1) * (1 / 2) * x) * x) * fd = I := by
    simp only [I]; unfold P3.till; simp only [fd, m]; ring
  have hc0 : p.crit vm u ≠ 0 := hc.ne'
  have hm0 : m ≠ 0 := hm.ne'
  have hfdx : fd * x * (1 / p.crit vm u) = 1 - fd := by
    have h1 : fd * (1 + x / p.crit vm u) = 1 := by
      simp only [fd]
      exact one_div_mul_cancel (by have : 0 < x := hx; have : 0 < p.crit vm u := hc; positivity)
    linear_combination h1
  have key : o = ⟨I * lf, (cu * lf + S * (de * (e * (p.theta / m) * (1 + fd)))) +
        (cx * lf + S * (de * (-(e * fd / x)) - k)) * (p.satv b (p.drive b vgsx vds)).g, S * k,
      ((-b.dqb * cu - b.dfbody / 2 * (p.beta / m) * x ^ 2 * fd - p.theta / m * b.dqb * I) * lf -
        b.dqb * (S * (de * (e * (p.theta / m) * (1 + fd))))) + (cx * lf + S * (de * (-(e * fd / x)) - k)) * (p.satv b (p.drive b vgsx vds)).b,
      cx * lf + S * (de * (-(e * fd / x)) - k), x, (p.satv b (p.drive b vgsx vds)).g, false⟩ := by
    rw [hon]
    unfold P3.on
    simp only [s1]
    simp only [show p.vsat vm (vgsx - p.vthAt b vds) b.fbody = x from rfl]
    have h' : x < vds := hsat
    simp only [if_pos h', if_neg hxx, if_pos (show x < vds ∧ p.alpha ≠ 0 from ⟨h', ha⟩)]
    rw [hsh, punch3 p hl _ hz, hcur, hsd, hI]
    simp only
    rw [show 1 / (1 - squeeze p.leff (p.beyond vm (vgsx - p.vthAt b vds) x vds) / p.leff) = lf from rfl]
    have eS : ∀ y, I * lf / (p.leff - squeeze p.leff (p.beyond vm (vgsx - p.vthAt b vds) x vds)) *
        (y * squeezeSlope p.leff (p.beyond vm (vgsx - p.vthAt b vds) x vds)) = S * y := by intro y; simp only [S, z, u]; ring
    simp only [eS]
    have ecu : (p.beta * (1 / m) * x - p.theta * (1 / m) * (1 / m) * (p.beta * ((u - (b.fbody + 1) * (1 / 2) * x) * x))) * fd +
        p.theta * (1 / m) * (1 / m) * (fd * fd * x * (1 / p.crit vm u) * m) * (p.beta * (1 / m) * ((u - (b.fbody + 1) * (1 / 2) * x) * x)) = cu := by
      simp only [cu]
      rw [← hI, show fd * fd * x * (1 / p.crit vm u) * m = fd * (fd * x * (1 / p.crit vm u)) * m by ring, hfdx]
      field_simp
      ring
    have ecx : p.beta * (1 / m) * (u - (b.fbody + 1) * x) * fd - fd * fd * (1 / p.crit vm u) * (p.beta * (1 / m) * ((u - (b.fbody + 1) * (1 / 2) * x) * x)) = cx := by
      simp only [cx]
      rw [← hI]
      ring
    have ecb : p.beta * (1 / m) * ((-b.dqb - b.dfbody * (1 / 2) * x) * x) * fd - p.theta * (1 / m) * (1 / m) * b.dqb *
        (fd * fd * x * (1 / p.crit vm u) * m) * (p.beta * (1 / m) * ((u - (b.fbody + 1) * (1 / 2) * x) * x)) =
        -b.dqb * cu - b.dfbody / 2 * (p.beta / m) * x ^ 2 * fd - p.theta / m * b.dqb * I := by
      simp only [cu]
      rw [← hI, show fd * fd * x * (1 / p.crit vm u) * m = fd * (fd * x * (1 / p.crit vm u)) * m by ring, hfdx]
      field_simp
      ring
    rw [ecu, ecx, ecb]
    rw [show vgsx - p.vthAt b vds = u from rfl]
    congr 1
    · simp only [de, e, m, fd, r, k]; ring
    · simp only [de, e, m, fd, r, k]; ring
  rw [key]
  refine ⟨?_, rfl, rfl, rfl, rfl⟩
  simp only [P3.chanS]
  rw [div_eq_mul_one_div]

/-! ## Slopes of the specification -/

theorem till_path (p : P3) (vm : ℝ) (hl : 0 < p.leff) (hvm : 0 < vm) (huo : 0 < p.uo) (U f X : ℝ → ℝ) (U' f' X' t : ℝ)
    (hU : HasDerivAt U U' t) (hf : HasDerivAt f f' t) (hX : HasDerivAt X X' t) (hm : 0 < 1 + p.theta * U t) (hx : 0 < X t) :
    let m := 1 + p.theta * U t
    let fd := 1 / (1 + X t / p.crit vm (U t))
    let I := p.till vm (U t) (f t) (X t)
    HasDerivAt (fun s => p.till vm (U s) (f s) (X s))
      (U' * (p.beta / m * X t * fd - I * p.theta / m * fd) + f' * -(1 / 2 * (p.beta / m) * X t ^ 2 * fd) +
        X' * (p.beta / m * (U t - (1 + f t) * X t) * fd - I * fd / p.crit vm (U t))) t := by
  intro m fd I
  have hcr : ∀ u, p.crit vm u = p.leff * vm * (1 + p.theta * u) / p.uo := fun _ => rfl
  have hK : 0 < p.leff * vm := by positivity
  have hA : HasDerivAt (fun s => (U s - (1 + f s) / 2 * X s) * X s) _ t := (hU.sub (((hf.const_add 1).div_const 2).mul hX)).mul hX
  have hB : HasDerivAt (fun s => 1 + p.theta * U s + X s * (p.uo / (p.leff * vm))) _ t :=
    ((hU.const_mul p.theta).const_add 1).add (hX.mul_const (p.uo / (p.leff * vm)))
  have hB0 : 1 + p.theta * U t + X t * (p.uo / (p.leff * vm)) ≠ 0 := by positivity
  have hall := (hA.div hB hB0).const_mul p.beta
  have hmc : ContinuousAt (fun s => 1 + p.theta * U s) t := continuousAt_const.add (continuousAt_const.mul hU.continuousAt)
  have one : ∀ s, 0 < 1 + p.theta * U s → (1 + p.theta * U s) * (1 + X s / p.crit vm (U s)) = 1 + p.theta * U s + X s * (p.uo / (p.leff * vm)) := by
    intro s hs
    rw [hcr]
    have := hs.ne'
    generalize 1 + p.theta * U s = mm at *
    field_simp
  have he : (fun s => p.till vm (U s) (f s) (X s)) =ᶠ[nhds t]
      fun s => p.beta * ((U s - (1 + f s) / 2 * X s) * X s / (1 + p.theta * U s + X s * (p.uo / (p.leff * vm)))) := by
    filter_upwards [hmc.eventually_const_lt hm] with s hs
    unfold P3.till
    rw [← one s hs, div_mul_eq_mul_div, div_div]
    ring
  refine (hall.congr_of_eventuallyEq he).congr_deriv ?_
  simp only [I, P3.till, fd]
  have hc : 0 < p.crit vm (U t) := by rw [hcr]; positivity
  have hR : p.uo / (p.leff * vm) = (1 + p.theta * U t) / p.crit vm (U t) := by
    rw [hcr]
    have := hm.ne'
    generalize 1 + p.theta * U t = mm at *
    field_simp
  rw [hR]
  simp only [Pi.sub_apply, Pi.mul_apply]
  have hmd : m = 1 + p.theta * U t := rfl
  rw [← hmd] at hm ⊢
  generalize p.crit vm (U t) = c at *
  have h1 : m + X t * (m / c) = m * (1 + X t / c) := by ring
  rw [h1]
  have h2 : 1 + X t / c = (c + X t) / c := by field_simp
  rw [h2]
  have h3 : c + X t ≠ 0 := by positivity
  field_simp
  ring

theorem field_path (p : P3) (vm : ℝ) (hl : 0 < p.leff) (hvm : 0 < vm) (huo : 0 < p.uo) (U X : ℝ → ℝ) (U' X' t : ℝ)
    (hU : HasDerivAt U U' t) (hX : HasDerivAt X X' t) (hm : 0 < 1 + p.theta * U t) (hx : 0 < X t) :
    let m := 1 + p.theta * U t
    let fd := 1 / (1 + X t / p.crit vm (U t))
    let e := p.field vm (U t) (X t)
    HasDerivAt (fun s => p.field vm (U s) (X s)) (U' * (e * (p.theta / m) * (1 + fd)) + X' * -(e * fd / X t)) t := by
  intro m fd e
  have hcr : ∀ u, p.crit vm u = p.leff * vm * (1 + p.theta * u) / p.uo := fun _ => rfl
  have hc : 0 < p.crit vm (U t) := by rw [hcr]; positivity
  have hC : HasDerivAt (fun s => p.crit vm (U s)) (p.crit vm (U t) * (p.theta / m) * U') t := by
    have h := (((hU.const_mul p.theta).const_add 1).const_mul (p.leff * vm)).div_const p.uo
    refine (show HasDerivAt (fun s => p.crit vm (U s)) _ t from h).congr_deriv ?_
    rw [hcr]
    simp only [m]
    have := hm.ne'
    generalize 1 + p.theta * U t = mm at *
    field_simp
  have h := (hC.mul (hC.add hX)).div (hX.const_mul p.leff) (by positivity)
  refine (show HasDerivAt (fun s => p.field vm (U s) (X s)) _ t from h).congr_deriv ?_
  simp only [e, P3.field, fd, Pi.mul_apply, Pi.add_apply]
  have hm0 : m ≠ 0 := hm.ne'
  generalize p.crit vm (U t) = c at *
  have h2 : 1 + X t / c = (c + X t) / c := by field_simp
  rw [h2]
  have h3 : c + X t ≠ 0 := by positivity
  field_simp
  ring

theorem chanS_path (p : P3) (vm : ℝ) (hl : 0 < p.leff) (hvm : 0 < vm) (huo : 0 < p.uo) (hk : 0 < p.kappa * p.alpha)
    (U f X d : ℝ → ℝ) (U' f' X' d' t : ℝ)
    (hU : HasDerivAt U U' t) (hf : HasDerivAt f f' t) (hX : HasDerivAt X X' t) (hd : HasDerivAt d d' t)
    (hm : 0 < 1 + p.theta * U t) (hx : 0 < X t) (hsat : X t < d t) :
    let m := 1 + p.theta * U t
    let fd := 1 / (1 + X t / p.crit vm (U t))
    let e := p.field vm (U t) (X t)
    let I := p.till vm (U t) (f t) (X t)
    let r := Real.sqrt ((p.alpha / 2 * e) ^ 2 + p.kappa * p.alpha * (d t - X t))
    let de := (p.alpha / 2 * e / r - 1) * (p.alpha / 2)
    let k := p.kappa * p.alpha / (r + r)
    let z := p.beyond vm (U t) (X t) (d t)
    let lf := 1 / (1 - squeeze p.leff z / p.leff)
    let S := I * lf / (p.leff - squeeze p.leff z) * squeezeSlope p.leff z
    HasDerivAt (fun s => p.chanS vm (U s) (f s) (X s) (d s))
      (U' * ((p.beta / m * X t * fd - I * p.theta / m * fd) * lf + S * (de * (e * (p.theta / m) * (1 + fd)))) +
        f' * -(1 / 2 * (p.beta / m) * X t ^ 2 * fd * lf) +
        X' * ((p.beta / m * (U t - (1 + f t) * X t) * fd - I * fd / p.crit vm (U t)) * lf + S * (de * (-(e * fd / X t)) - k)) +
        d' * (S * k)) t := by
  intro m fd e I r de k z lf S
  have h1 := till_path p vm hl hvm huo U f X U' f' X' t hU hf hX hm hx
  have h2 := field_path p vm hl hvm huo U X U' X' t hU hX hm hx
  simp only at h1 h2
  have hpos : 0 < (p.alpha / 2 * e) ^ 2 + p.kappa * p.alpha * (d t - X t) := by
    have : 0 < p.kappa * p.alpha * (d t - X t) := mul_pos hk (by linarith)
    positivity
  have hr : 0 < r := Real.sqrt_pos.2 hpos
  have hz0 : 0 < z := by
    simp only [z]; unfold P3.beyond
    rw [sub_pos]
    refine Real.lt_sqrt_of_sq_lt ?_
    have : 0 < p.kappa * p.alpha * (d t - X t) := mul_pos hk (by linarith)
    linarith
  have h3 := h2.const_mul (p.alpha / 2)
  have h4 := (((h3.pow 2).add ((hd.sub hX).const_mul (p.kappa * p.alpha))).sqrt hpos.ne').sub h3
  have hz : HasDerivAt (fun s => p.beyond vm (U s) (X s) (d s))
      (de * (U' * (e * (p.theta / m) * (1 + fd)) + X' * -(e * fd / X t)) + k * (d' - X')) t := by
    refine (show HasDerivAt (fun s => p.beyond vm (U s) (X s) (d s)) _ t from h4).congr_deriv ?_
    simp only [Pi.add_apply, Pi.pow_apply, Pi.sub_apply]
    show (_ : ℝ) / (2 * r) - _ = _
    simp only [de, k]
    rw [show p.field vm (U t) (X t) = e from rfl, show (1 + p.theta * U t) = m from rfl, show 1 / (1 + X t / p.crit vm (U t)) = fd from rfl]
    generalize U' * (e * (p.theta / m) * (1 + fd)) + X' * -(e * fd / X t) = y
    push_cast
    field_simp
    ring
  have hs := (squeeze_deriv p.leff z hl hz0).comp t hz
  obtain ⟨hs0, hs1⟩ := squeeze_lt p.leff z hl hz0.le
  have hq : 0 < 1 - squeeze p.leff z / p.leff := by rw [sub_pos, div_lt_one hl]; exact hs1
  have h5 := h1.div ((hs.div_const p.leff).const_sub 1) hq.ne'
  refine (show HasDerivAt (fun s => p.chanS vm (U s) (f s) (X s) (d s)) _ t from h5).congr_deriv ?_
  simp only [Function.comp]
  rw [show p.beyond vm (U t) (X t) (d t) = z from rfl, show p.till vm (U t) (f t) (X t) = I from rfl, show (1 + p.theta * U t) = m from rfl,
    show 1 / (1 + X t / p.crit vm (U t)) = fd from rfl]
  simp only [S, lf]
  have hq2 : 1 - squeeze p.leff z / p.leff = (p.leff - squeeze p.leff z) / p.leff := by field_simp
  rw [hq2]
  have h6 : p.leff - squeeze p.leff z ≠ 0 := by linarith
  generalize squeezeSlope p.leff z = ss
  generalize p.leff - squeeze p.leff z = w at *
  generalize p.beta / m * X t * fd - I * p.theta / m * fd = A1
  generalize e * (p.theta / m) * (1 + fd) = A2
  generalize 1 / 2 * (p.beta / m) * X t ^ 2 * fd = A3
  generalize p.beta / m * (U t - (1 + f t) * X t) * fd - I * fd / p.crit vm (U t) = A4
  generalize e * fd / X t = A5
  generalize de = de'
  generalize k = k'
  field_simp
  ring

theorem vsat_path (p : P3) (vm : ℝ) (U f : ℝ → ℝ) (U' f' t : ℝ) (hU : HasDerivAt U U' t) (hf : HasDerivAt f f' t) (hft : 0 < 1 + f t)
    (hu : 0 < U t) : ∃ V', HasDerivAt (fun s => p.vsat vm (U s) (f s)) V' t := by
  have h1 := hU.div (hf.const_add 1) hft.ne'
  have h2 : HasDerivAt (fun s => p.crit vm (U s)) _ t := (((hU.const_mul p.theta).const_add 1).const_mul (p.leff * vm)).div_const p.uo
  have hpos : 0 < (U t / (1 + f t)) ^ 2 + p.crit vm (U t) ^ 2 := by positivity
  exact ⟨_, (h1.add h2).sub (((h1.pow 2).add (h2.pow 2)).sqrt hpos.ne')⟩

/-- below the top of the parabola -/
theorem vsat_bounds (p : P3) (vm u f : ℝ) (hu : 0 < u) (hf : 0 < 1 + f) (hc : 0 < p.crit vm u) :
    0 < p.vsat vm u f ∧ p.vsat vm u f < u / (1 + f) := by
  unfold P3.vsat
  have ha : 0 < u / (1 + f) := by positivity
  generalize u / (1 + f) = a at *
  generalize p.crit vm u = c at *
  have hrc : c < Real.sqrt (a ^ 2 + c ^ 2) := by rw [Real.lt_sqrt hc.le]; nlinarith
  have hra : Real.sqrt (a ^ 2 + c ^ 2) < a + c := by rw [Real.sqrt_lt' (by positivity)]; nlinarith
  constructor <;> linarith

/-- where velocity saturation and shortening meet: in saturation, the saturation conductance above its floor -/
structure P3.Meet (p : P3) (vm vgs vds vbs : ℝ) : Prop where
  vmax : p.vmax = some vm
  vpos : 0 < vm
  uo : 0 < p.uo
  theta : 0 ≤ p.theta
  beta : 0 < p.beta
  kappa : 0 < p.kappa
  alpha : 0 < p.alpha
  eta : p.eta = 0
  sub : p.sub = false
  ok : p.Ok vbs
  on : p.vth vds vbs < vgs
  sat : p.vsat vm (vgs - p.vth vds vbs) (p.F vbs) < vds
  floor : 1 / 10 ^ 12 ≤ p.till vm (vgs - p.vth vds vbs) (p.F vbs) (p.vsat vm (vgs - p.vth vds vbs) (p.F vbs)) /
    (p.leff * p.field vm (vgs - p.vth vds vbs) (p.vsat vm (vgs - p.vth vds vbs) (p.F vbs)))

/-- the current there -/
noncomputable def P3.IS (p : P3) (vm vgs vds vbs : ℝ) : ℝ :=
  p.chanS vm (vgs - p.vth vds vbs) (p.F vbs) (p.vsat vm (vgs - p.vth vds vbs) (p.F vbs)) vds

/-- **C90, velocity saturation and shortening.**  The current is that of the equations: the channel up to `vdsat`, shortened by what is
beyond.  The slope with drain voltage is right.  That with gate voltage is right but for the slope of `vdsat` (see
`level3_vdsat_wrong`), that with bulk voltage but for it and the lack that `level3_vmax_slopes` shows. -/
theorem level3_vmax_short (p : P3) (vm vgs vds vbs : ℝ) (h : p.Meet vm vgs vds vbs) :
    let o := p.out (p.body vbs) vgs vds
    let s := p.satv (p.body vbs) (p.drive (p.body vbs) vgs vds)
    let gds0 := (p.on (p.body vbs) vgs vds).gds0
    o.ids = p.IS vm vgs vds vbs ∧ HasDerivAt (fun x => p.IS vm vgs x vbs) o.gds vds ∧
    HasDerivAt (fun x => p.IS vm x vds vbs) (o.gm + gds0 * (deriv (fun x => p.vsat vm (x - p.vth vds vbs) (p.F vbs)) vgs - s.g)) vgs ∧
    HasDerivAt (fun x => p.IS vm vgs vds x) (o.gmb + p.theta / (1 + p.theta * (vgs - p.vth vds vbs)) * deriv p.Q vbs * o.ids +
      gds0 * (deriv (fun x => p.vsat vm (vgs - p.vth vds x) (p.F x)) vbs - s.b)) vbs := by
  intro o s gds0
  obtain ⟨_, _, _, _, b5, _, b7, b8⟩ := body3 p h.ok.phi h.ok.doped vbs h.ok.back h.ok.part
  have hth := vthAt3 p h.ok.phi h.ok.doped vds vbs h.ok.back h.ok.part
  obtain ⟨s1, s2, s3, s4⟩ := strong3 p h.sub vgs vds vbs h.ok h.on
  have hvth : ∀ x, p.vth x vbs = p.vth vds vbs := by intro x; unfold P3.vth; rw [h.eta]; ring
  have hs0 : p.sigma = 0 := by unfold P3.sigma; rw [h.eta]; ring
  have hl := h.ok.len
  have hF := h.ok.F
  have hvm := h.vpos
  have huo := h.uo
  have hth0 := h.theta
  have hu : 0 < vgs - p.vth vds vbs := by have := h.on; linarith
  have hm : 0 < 1 + p.theta * (vgs - p.vth vds vbs) := by positivity
  have hc : 0 < p.crit vm (vgs - p.vth vds vbs) := by unfold P3.crit; positivity
  obtain ⟨hx, hxa⟩ := vsat_bounds p vm (vgs - p.vth vds vbs) (p.F vbs) hu hF hc
  have hJ : 0 < p.beta * ((vgs - p.vth vds vbs - (1 + p.F vbs) / 2 * p.vsat vm (vgs - p.vth vds vbs) (p.F vbs)) *
      p.vsat vm (vgs - p.vth vds vbs) (p.F vbs)) := by
    rw [lt_div_iff₀ hF] at hxa
    have : 0 < vgs - p.vth vds vbs - (1 + p.F vbs) / 2 * p.vsat vm (vgs - p.vth vds vbs) (p.F vbs) := by nlinarith
    have := h.beta
    positivity
  have hka : 0 < p.kappa * p.alpha := mul_pos h.kappa h.alpha
  obtain ⟨o1, o2, o3, o4, o5⟩ := on_vmax_short p (p.body vbs) vm h.vmax hs0 hl h.alpha.ne' hka.le vgs vds (by rw [hth]; exact hm)
    (by rw [hth]; exact hc) (by rw [hth, b5]; exact hx) (by rw [hth, b5]; exact h.sat) (by rw [hth, b5]; exact hJ) (by rw [hth, b5]; exact h.floor)
  simp only [hth, b5] at o1 o2 o3 o4 o5
  have hids : o.ids = p.IS vm vgs vds vbs := by rw [s1, o1]; rfl
  have hvb : HasDerivAt (fun x => vgs - p.vth vds x) (-(p.body vbs).dqb) vbs := by
    have : HasDerivAt (fun x => p.vth vds x) (p.body vbs).dqb vbs := b8.const_add _
    exact this.const_sub vgs
  have hvg : HasDerivAt (fun x => x - p.vth vds vbs) 1 vgs := (hasDerivAt_id' vgs).sub_const _
  have hVG : HasDerivAt (fun x => p.vsat vm (x - p.vth vds vbs) (p.F vbs)) (deriv (fun x => p.vsat vm (x - p.vth vds vbs) (p.F vbs)) vgs) vgs := by
    obtain ⟨V', hV⟩ := vsat_path p vm (fun x => x - p.vth vds vbs) (fun _ => p.F vbs) 1 0 vgs hvg (hasDerivAt_const _ _) hF hu
    exact hV.differentiableAt.hasDerivAt
  have hVB : HasDerivAt (fun x => p.vsat vm (vgs - p.vth vds x) (p.F x)) (deriv (fun x => p.vsat vm (vgs - p.vth vds x) (p.F x)) vbs) vbs := by
    obtain ⟨V', hV⟩ := vsat_path p vm (fun x => vgs - p.vth vds x) p.F _ _ vbs hvb b7 hF hu
    exact hV.differentiableAt.hasDerivAt
  refine ⟨hids, ?_, ?_, ?_⟩
  · have hpath := chanS_path p vm hl hvm huo hka (fun _ => vgs - p.vth vds vbs) (fun _ => p.F vbs)
      (fun _ => p.vsat vm (vgs - p.vth vds vbs) (p.F vbs)) id 0 0 0 1 vds (hasDerivAt_const _ _) (hasDerivAt_const _ _) (hasDerivAt_const _ _)
      (hasDerivAt_id vds) hm hx h.sat
    have he : (fun x => p.IS vm vgs x vbs) = fun x => p.chanS vm (vgs - p.vth vds vbs) (p.F vbs) (p.vsat vm (vgs - p.vth vds vbs) (p.F vbs)) (id x) := by
      funext x; unfold P3.IS; rw [hvth x]; rfl
    rw [he]
    refine hpath.congr_deriv ?_
    rw [s3, o4]
    simp only [id, zero_mul, zero_add, one_mul]
  · have hpath := chanS_path p vm hl hvm huo hka (fun x => x - p.vth vds vbs) (fun _ => p.F vbs)
      (fun x => p.vsat vm (x - p.vth vds vbs) (p.F vbs)) (fun _ => vds) _ _ _ _ vgs hvg (hasDerivAt_const _ _) hVG
      (hasDerivAt_const _ _) hm hx h.sat
    refine (show HasDerivAt (fun x => p.IS vm x vds vbs) _ vgs from hpath).congr_deriv ?_
    rw [s2, o3, show gds0 = (p.on (p.body vbs) vgs vds).gds0 from rfl, o2]
    ring
  · have hpath := chanS_path p vm hl hvm huo hka (fun x => vgs - p.vth vds x) p.F
      (fun x => p.vsat vm (vgs - p.vth vds x) (p.F x)) (fun _ => vds) _ _ _ _ vbs hvb b7 hVB
      (hasDerivAt_const _ _) hm hx h.sat
    refine (show HasDerivAt (fun x => p.IS vm vgs vds x) _ vbs from hpath).congr_deriv ?_
    rw [s4, o5, show gds0 = (p.on (p.body vbs) vgs vds).gds0 from rfl, o2, b8.deriv, hids]
    have hIS : p.IS vm vgs vds vbs = p.till vm (vgs - p.vth vds vbs) (p.F vbs) (p.vsat vm (vgs - p.vth vds vbs) (p.F vbs)) *
        (1 / (1 - squeeze p.leff (p.beyond vm (vgs - p.vth vds vbs) (p.vsat vm (vgs - p.vth vds vbs) (p.F vbs)) vds) / p.leff)) := by
      unfold P3.IS P3.chanS; rw [div_eq_mul_one_div]
    rw [hIS]
    ring

/-- a device: `vdsat` 2 - √2, shortened -/
theorem demo_meet : (demo 0 0 1 false (some 1)).Meet 1 6 2 0 := by
  have e : (demo 0 0 1 false (some 1)).vth 2 0 = 4 := by rw [demo_vth]; norm_num
  have hV : (demo 0 0 1 false (some 1)).vsat 1 2 1 = 2 - Real.sqrt 2 := by norm_num [demo, P3.vsat, P3.crit]
  obtain ⟨h1, h2⟩ := sqrt_two_bounds
  have hsq : Real.sqrt 2 ^ 2 = 2 := Real.sq_sqrt (by norm_num)
  refine ⟨rfl, by norm_num, by norm_num [demo], by norm_num [demo], by norm_num [demo], by norm_num [demo], by norm_num [demo], rfl, rfl,
    demo_ok _ _ _ _ _ _ le_rfl, by rw [e]; norm_num, ?_, ?_⟩
  · rw [e, demo_F, show (6 : ℝ) - 4 = 2 by norm_num, hV]; linarith
  · rw [e, demo_F, show (6 : ℝ) - 4 = 2 by norm_num, hV]
    norm_num [demo, P3.till, P3.field, P3.crit]
    generalize Real.sqrt 2 = q at *
    have a1 : 0 < 2 - q := by linarith
    have a2 : 0 < 1 + (2 - q) := by linarith
    have e1 : 4 * (q * (2 - q)) / (1 + (2 - q)) / ((1 + (2 - q)) / (2 - q)) = 4 * q * ((2 - q) / (1 + (2 - q))) ^ 2 := by field_simp
    have e2 : 1 / 4 ≤ (2 - q) / (1 + (2 - q)) := by rw [le_div_iff₀ a2]; linarith
    rw [e1]
    nlinarith

example : ((demo 0 0 1 false (some 1)).out ((demo 0 0 1 false (some 1)).body 0) 6 2).ids = (demo 0 0 1 false (some 1)).IS 1 6 2 0 :=
  (level3_vmax_short _ 1 6 2 0 demo_meet).1

end Gnucap.Mos
