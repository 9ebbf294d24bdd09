import Verif.Mos3Model
import Verif.Mos6Props

/-!
# Mosfet, level 3 (C90)
-/
set_option linter.unusedSimpArgs false
namespace Gnucap.Mos

/-! ## Specification -/

/-- what is left of the bulk charge in a short channel; `w` is the depth of the depletion layer over that of the junctions -/
noncomputable def P3.share (p : P3) (w : ℝ) : ℝ :=
  1 - p.xj / p.leff * ((0.0631353 + 0.8013292 * w - 0.01110777 * w ^ 2 + p.ld / p.xj) * Real.sqrt (1 - (w / (w + 1)) ^ 2) - p.ld / p.xj)

noncomputable def P3.part (p : P3) (vbs : ℝ) : ℝ :=
  if p.short then p.share (Real.sqrt p.alpha * Real.sqrt (p.tphi - vbs) / p.xj) else 1

/-- body effect in the channel -/
noncomputable def P3.F (p : P3) (vbs : ℝ) : ℝ := p.gamma * p.part vbs / (4 * Real.sqrt (p.tphi - vbs)) + p.delta3 / p.weff

/-- charge of the bulk -/
noncomputable def P3.Q (p : P3) (vbs : ℝ) : ℝ := p.gamma * p.part vbs * Real.sqrt (p.tphi - vbs) + p.delta3 / p.weff * (p.tphi - vbs)

/-- threshold, with static feedback -/
noncomputable def P3.vth (p : P3) (vds vbs : ℝ) : ℝ := p.vbi - p.eta * 8.15e-22 / (p.cox * p.leff ^ 3) * vds + p.Q vbs

/-- the parabola of the drain voltage `d`, up to its top -/
noncomputable def par (u f d : ℝ) : ℝ := u ^ 2 / (2 * (1 + f)) - (1 + f) / 2 * pos (u / (1 + f) - d) ^ 2

/-- shortening of the channel, held below its length -/
noncomputable def squeeze (l z : ℝ) : ℝ := if z ≤ l / 2 then z else l - l ^ 2 / (4 * z)

/-- the channel, `u` above threshold, without velocity saturation -/
noncomputable def P3.chan (p : P3) (u f vds : ℝ) : ℝ :=
  p.beta / (1 + p.theta * u) * par u f vds / (1 - squeeze p.leff (Real.sqrt (p.kappa * p.alpha * pos (vds - u / (1 + f)))) / p.leff)

/-- emission factor below threshold -/
noncomputable def P3.N (p : P3) (vbs : ℝ) : ℝ := 1 + p.cfsox + p.Q vbs / (2 * (p.tphi - vbs))

/-- current without velocity saturation -/
noncomputable def P3.I (p : P3) (vgs vds vbs : ℝ) : ℝ :=
  let u := vgs - p.vth vds vbs
  if p.sub then
    let n := p.vt * p.N vbs
    if u < n then p.chan n (p.F vbs) vds * Real.exp ((u - n) / n) else p.chan u (p.F vbs) vds
  else if u ≤ 0 then 0 else p.chan u (p.F vbs) vds

/-! ## Parabola -/

theorem par_below {u f d : ℝ} (hf : 0 < 1 + f) (h : d ≤ u / (1 + f)) : par u f d = (u - (f + 1) * (1 / 2) * d) * d := by
  unfold par pos
  rw [max_eq_left (by linarith)]
  field_simp
  ring

theorem par_above {u f d : ℝ} (h : u / (1 + f) ≤ d) : par u f d = u ^ 2 / (2 * (1 + f)) := by
  unfold par pos
  rw [max_eq_right (by linarith)]
  ring

theorem par_min {u f d : ℝ} (hf : 0 < 1 + f) : par u f d = (u - (f + 1) * (1 / 2) * min d (u / (1 + f))) * min d (u / (1 + f)) := by
  rcases le_total d (u / (1 + f)) with h | h
  · rw [par_below hf h, min_eq_left h]
  · rw [par_above h, min_eq_right h]
    field_simp
    ring

theorem par_path (u f d : ℝ → ℝ) (u' f' d' t : ℝ) (hu : HasDerivAt u u' t) (hf : HasDerivAt f f' t) (hd : HasDerivAt d d' t)
    (h : 0 < 1 + f t) :
    HasDerivAt (fun x => par (u x) (f x) (d x))
      (min (d t) (u t / (1 + f t)) * u' - min (d t) (u t / (1 + f t)) ^ 2 / 2 * f' +
        (u t - (f t + 1) * min (d t) (u t / (1 + f t))) * d') t := by
  have hF : HasDerivAt (fun x => 1 + f x) f' t := hf.const_add 1
  have hA : HasDerivAt (fun x => u x / (1 + f x)) _ t := hu.div hF h.ne'
  have hP := pos_sq_path _ _ t (hA.sub hd)
  have h1 : HasDerivAt (fun x => u x ^ 2 / (2 * (1 + f x))) _ t := (hu.pow 2).div (hF.const_mul 2) (by positivity)
  have h2 := h1.sub ((hF.div_const 2).mul hP)
  refine h2.congr_deriv ?_
  rw [show min (d t) (u t / (1 + f t)) = u t / (1 + f t) - pos (u t / (1 + f t) - d t) by
    unfold pos
    rcases le_total (d t) (u t / (1 + f t)) with h | h
    · rw [min_eq_left h, max_eq_left (by linarith)]; ring
    · rw [min_eq_right h, max_eq_right (by linarith)]; ring]
  simp only [Pi.sub_apply, Pi.pow_apply]
  generalize pos (u t / (1 + f t) - d t) = q
  have hne : 1 + f t ≠ 0 := h.ne'
  have e : f t + 1 = 1 + f t := by ring
  rw [e]
  generalize 1 + f t = m at *
  push_cast
  field_simp
  ring

/-! ## Bulk -/

theorem sarg3 (p : P3) (vbs : ℝ) (hb : vbs ≤ 0) :
    p.sarg vbs = (Real.sqrt (p.tphi - vbs), p.tphi - vbs, -(1 / 2) / Real.sqrt (p.tphi - vbs)) := by
  unfold P3.sarg; rw [if_pos hb]

theorem root3_deriv (p : P3) (ht : 0 < p.tphi) (vbs : ℝ) (hb : vbs ≤ 0) :
    HasDerivAt (fun x => Real.sqrt (p.tphi - x)) (-(1 / 2) / Real.sqrt (p.tphi - vbs)) vbs := by
  have h1 : HasDerivAt (fun x => p.tphi - x) (-1) vbs := by simpa using (hasDerivAt_id vbs).const_sub p.tphi
  exact (h1.sqrt (by linarith : p.tphi - vbs ≠ 0)).congr_deriv (by
    rw [div_eq_div_iff (by have := Real.sqrt_pos.2 (by linarith : 0 < p.tphi - vbs); positivity)
      (by have := Real.sqrt_pos.2 (by linarith : 0 < p.tphi - vbs); positivity)]; ring)

/-- a short channel has a junction depth and a doping, or it is not treated as one -/
def P3.Doped (p : P3) : Prop := p.short = true → 0 < p.xj ∧ 0 < p.alpha

theorem share_deriv (p : P3) (w : ℝ) (hw : 0 < w) :
    HasDerivAt p.share (-(p.xj / p.leff) * ((0.8013292 - 0.01110777 * (2 * w)) * Real.sqrt (1 - (w / (w + 1)) ^ 2) +
      (0.0631353 + 0.8013292 * w - 0.01110777 * w ^ 2 + p.ld / p.xj) *
        (-(w / (w + 1)) * (1 / (w + 1)) ^ 2 / Real.sqrt (1 - (w / (w + 1)) ^ 2)))) w := by
  have hq : w / (w + 1) < 1 := (div_lt_one (by linarith)).2 (by linarith)
  have hq0 : 0 ≤ w / (w + 1) := by positivity
  have hpos : 0 < 1 - (w / (w + 1)) ^ 2 := by nlinarith
  have hid := hasDerivAt_id' w
  have hc : HasDerivAt (fun x : ℝ => x / (x + 1)) ((1 / (w + 1)) ^ 2) w := by
    refine (hid.div (hid.add_const 1) (by linarith)).congr_deriv ?_
    have : w + 1 ≠ 0 := by linarith
    field_simp; ring
  have hB : HasDerivAt (fun x : ℝ => Real.sqrt (1 - (x / (x + 1)) ^ 2)) _ w := ((hc.pow 2).const_sub 1).sqrt hpos.ne'
  have hA : HasDerivAt (fun x : ℝ => 0.0631353 + 0.8013292 * x - 0.01110777 * x ^ 2 + p.ld / p.xj) (0.8013292 - 0.01110777 * (2 * w)) w := by
    refine ((((hid.const_mul 0.8013292).const_add 0.0631353).sub ((hid.pow 2).const_mul 0.01110777)).add_const _).congr_deriv ?_
    push_cast; ring
  have h := (((hA.mul hB).sub_const (p.ld / p.xj)).const_mul (p.xj / p.leff)).const_sub 1
  have he : p.share = fun x => 1 - p.xj / p.leff * ((fun x => 0.0631353 + 0.8013292 * x - 0.01110777 * x ^ 2 + p.ld / p.xj) x *
      (fun x => Real.sqrt (1 - (x / (x + 1)) ^ 2)) x - p.ld / p.xj) := by
    funext x; rfl
  rw [he]
  refine h.congr_deriv ?_
  have hs : Real.sqrt (1 - (w / (w + 1)) ^ 2) ≠ 0 := (Real.sqrt_pos.2 hpos).ne'
  simp only [Pi.pow_apply]
  push_cast
  field_simp

theorem fshort3 (p : P3) (ht : 0 < p.tphi) (hdop : p.Doped) (vbs : ℝ) (hb : vbs ≤ 0) :
    ∃ e, p.fshort (Real.sqrt (p.tphi - vbs)) (-(1 / 2) / Real.sqrt (p.tphi - vbs)) = (p.part vbs, e, false) ∧ HasDerivAt p.part e vbs := by
  by_cases hsh : p.short = true
  · obtain ⟨hx, ha⟩ := hdop hsh
    have hr : 0 < Real.sqrt (p.tphi - vbs) := Real.sqrt_pos.2 (by linarith)
    have hsa : 0 < Real.sqrt p.alpha := Real.sqrt_pos.2 ha
    have hw : 0 < Real.sqrt p.alpha * Real.sqrt (p.tphi - vbs) / p.xj := by positivity
    have hW : HasDerivAt (fun x => Real.sqrt p.alpha * Real.sqrt (p.tphi - x) / p.xj)
        (Real.sqrt p.alpha * (-(1 / 2) / Real.sqrt (p.tphi - vbs)) / p.xj) vbs := ((root3_deriv p ht vbs hb).const_mul _).div_const _
    have hS := (share_deriv p _ hw).comp vbs hW
    have hpart : p.part = p.share ∘ fun x => Real.sqrt p.alpha * Real.sqrt (p.tphi - x) / p.xj := by
      funext x; unfold P3.part; rw [if_pos hsh]; rfl
    have hq : Real.sqrt p.alpha * Real.sqrt (p.tphi - vbs) / p.xj / (Real.sqrt p.alpha * Real.sqrt (p.tphi - vbs) / p.xj + 1) < 1 :=
      (div_lt_one (by linarith)).2 (by linarith)
    have hq0 : 0 ≤ Real.sqrt p.alpha * Real.sqrt (p.tphi - vbs) / p.xj / (Real.sqrt p.alpha * Real.sqrt (p.tphi - vbs) / p.xj + 1) := by positivity
    have hpos : 0 < Real.sqrt (1 - (Real.sqrt p.alpha * Real.sqrt (p.tphi - vbs) / p.xj /
        (Real.sqrt p.alpha * Real.sqrt (p.tphi - vbs) / p.xj + 1)) ^ 2) := Real.sqrt_pos.2 (by nlinarith)
    rw [← hpart] at hS
    refine ⟨_, ?_, hS⟩
    ·
      unfold P3.fshort P3.part P3.share
      simp only [hsh, if_true, ← pow_two]
      rw [if_neg (by positivity)]
      generalize Real.sqrt (1 - (Real.sqrt p.alpha * Real.sqrt (p.tphi - vbs) / p.xj /
        (Real.sqrt p.alpha * Real.sqrt (p.tphi - vbs) / p.xj + 1)) ^ 2) = argb at *
      generalize Real.sqrt (p.tphi - vbs) = r at *
      generalize Real.sqrt p.alpha = a at *
      have hx0 : p.xj ≠ 0 := hx.ne'
      have h1 : a * r / p.xj + 1 ≠ 0 := by positivity
      have h1' : a * r + p.xj ≠ 0 := by positivity
      refine Prod.ext_iff.2 ⟨?_, Prod.ext_iff.2 ⟨?_, rfl⟩⟩
      · simp only
        ring
      · simp only
        field_simp
        ring
  · refine ⟨0, ?_, ?_⟩
    · unfold P3.fshort P3.part; rw [if_neg hsh, if_neg hsh]
    · have : p.part = fun _ => 1 := by funext x; unfold P3.part; rw [if_neg hsh]
      rw [this]; exact hasDerivAt_const _ _

/-- the bulk: what the code calls slopes are those of the specification -/
theorem body3 (p : P3) (ht : 0 < p.tphi) (hdop : p.Doped) (vbs : ℝ) (hb : vbs ≤ 0) (hp : p.part vbs ≠ 0) :
    (p.body vbs).nan = false ∧ (p.body vbs).sarg = Real.sqrt (p.tphi - vbs) ∧ (p.body vbs).vphis = p.tphi - vbs ∧
    (p.body vbs).dsarg = -(1 / 2) / Real.sqrt (p.tphi - vbs) ∧ (p.body vbs).fbody = p.F vbs ∧ (p.body vbs).qb = p.Q vbs ∧
    HasDerivAt p.F (p.body vbs).dfbody vbs ∧ HasDerivAt p.Q (p.body vbs).dqb vbs := by
  obtain ⟨e, h1, h2⟩ := fshort3 p ht hdop vbs hb
  have hr : 0 < Real.sqrt (p.tphi - vbs) := Real.sqrt_pos.2 (by linarith)
  have hR := root3_deriv p ht vbs hb
  have hl : HasDerivAt (fun x => p.tphi - x) (-1) vbs := by simpa using (hasDerivAt_id vbs).const_sub p.tphi
  unfold P3.body
  simp only [sarg3 p vbs hb, h1]
  refine ⟨trivial, trivial, trivial, trivial, ?_, rfl, ?_, ?_⟩
  · unfold P3.F
    ring
  · have h := ((h2.const_mul p.gamma).div (hR.const_mul 4) (by positivity)).add_const (p.delta3 / p.weff)
    refine (show HasDerivAt p.F _ vbs from h).congr_deriv ?_
    generalize Real.sqrt (p.tphi - vbs) = r at *
    field_simp
    ring
  · have h := ((h2.const_mul p.gamma).mul hR).add (hl.const_mul (p.delta3 / p.weff))
    refine (show HasDerivAt p.Q _ vbs from h).congr_deriv ?_
    ring

theorem vthAt3 (p : P3) (ht : 0 < p.tphi) (hdop : p.Doped) (vds vbs : ℝ) (hb : vbs ≤ 0) (hp : p.part vbs ≠ 0) :
    p.vthAt (p.body vbs) vds = p.vth vds vbs := by
  obtain ⟨_, _, _, _, _, h, _⟩ := body3 p ht hdop vbs hb hp
  unfold P3.vthAt P3.vth P3.sigma
  rw [h]
  norm_num
  left
  ring

/-! ## Channel without velocity saturation -/

/-- the saturation voltage -/
theorem satv3 (p : P3) (b : Body) (hv : p.vmax = none) (r : Drive) :
    p.satv b r = ⟨r.vc / (1 + b.fbody), 1 / (1 + b.fbody), 1 / (1 + b.fbody) * p.sigma,
      -(1 / (1 + b.fbody) * b.dqb) - r.vc / (1 + b.fbody) * b.dfbody * (1 / (1 + b.fbody)), 0⟩ := by
  unfold P3.satv
  simp only [hv]
  rw [show b.fbody + 1 = 1 + b.fbody by ring]
  congr 1 <;> ring

/-- in saturation with shortening, or not -/
theorem on_plain (p : P3) (b : Body) (hv : p.vmax = none) (hF : 0 < 1 + b.fbody) (vgsx vds : ℝ)
    (h : p.alpha = 0 ∨ vds ≤ (vgsx - p.vthAt b vds) / (1 + b.fbody)) :
    let u := vgsx - p.vthAt b vds
    let x := min vds (u / (1 + b.fbody))
    let fg := 1 / (p.theta * u + 1)
    let o := p.on b vgsx vds
    o.ids = p.beta * fg * par u b.fbody vds ∧ o.gm = p.beta * fg * x - p.theta * fg * fg * (p.beta * par u b.fbody vds) ∧
    o.gds = p.beta * fg * (u - (b.fbody + 1) * x + p.sigma * x) - p.theta * fg * fg * (p.beta * par u b.fbody vds) * p.sigma ∧
    o.gmb = p.beta * fg * (-(b.dqb * x) - b.dfbody / 2 * x ^ 2) ∧ o.gds0 = 0 := by
  intro u x fg o
  have hx : (if u / (1 + b.fbody) < vds then u / (1 + b.fbody) else vds) = x := by
    split
    · rename_i h; exact (min_eq_right h.le).symm
    · rename_i h; exact (min_eq_left (not_lt.1 h)).symm
  have hn : ¬(u / (1 + b.fbody) < vds ∧ p.alpha ≠ 0) := by
    rintro ⟨h1, h2⟩
    rcases h with h | h
    · exact h2 h
    · exact absurd h1 (not_lt.2 h)
  have ho : o = if x = 0 then ⟨0, 0, p.beta * fg * u, 0, 0, u / (1 + b.fbody), 1 / (1 + b.fbody), true⟩ else
      let c := p.cur b (p.drive b vgsx vds) (p.satv b (p.drive b vgsx vds)) x
      ⟨c.ids, c.gm, c.gds, c.gmb, 0, u / (1 + b.fbody), 1 / (1 + b.fbody), false⟩ := by
    show p.on b vgsx vds = _
    unfold P3.on
    simp only [satv3 p b hv]
    rw [show (p.drive b vgsx vds).vc = u from rfl, hx]
    simp only [if_neg hn]
    rfl
  have hpar : par u b.fbody vds = (u - (b.fbody + 1) * (1 / 2) * x) * x := par_min hF
  rw [ho, hpar]
  by_cases h0 : x = 0
  · simp only [h0, if_true]
    refine ⟨?_, ?_, ?_, ?_, trivial⟩ <;> ring
  · simp only [if_neg h0]
    unfold P3.cur P3.drive
    simp only [hv]
    rw [show vgsx - p.vthAt b vds = u from rfl, show 1 / (p.theta * u + 1) = fg from rfl]
    refine ⟨?_, ?_, ?_, ?_, trivial⟩ <;> ring

/-- along a path: `u` above threshold, `F` and `Q` of the bulk.  The slope with bulk voltage lacks the influence on mobility. -/
theorem plain_path (p : P3) (u f d : ℝ → ℝ) (u' f' d' t : ℝ) (hu : HasDerivAt u u' t) (hf : HasDerivAt f f' t) (hd : HasDerivAt d d' t)
    (hF : 0 < 1 + f t) (hm : p.theta * u t + 1 ≠ 0) :
    let x := min (d t) (u t / (1 + f t))
    let fg := 1 / (p.theta * u t + 1)
    HasDerivAt (fun y => p.beta / (1 + p.theta * u y) * par (u y) (f y) (d y))
      (p.beta * fg * (x * u' - x ^ 2 / 2 * f' + (u t - (f t + 1) * x) * d') - p.theta * fg * fg * (p.beta * par (u t) (f t) (d t)) * u') t := by
  intro x fg
  have hP := par_path u f d u' f' d' t hu hf hd hF
  have hm' : 1 + p.theta * u t ≠ 0 := by rwa [add_comm]
  have hG : HasDerivAt (fun y => p.beta / (1 + p.theta * u y)) _ t := (hasDerivAt_const t p.beta).div ((hu.const_mul p.theta).const_add 1) hm'
  refine (hG.mul hP).congr_deriv ?_
  simp only [fg]
  rw [show p.theta * u t + 1 = 1 + p.theta * u t by ring]
  show _ = _
  generalize par (u t) (f t) (d t) = P
  simp only [x]
  generalize min (d t) (u t / (1 + f t)) = z
  generalize 1 + p.theta * u t = m at *
  field_simp
  ring

/-! ## Shortening of the channel -/

noncomputable def squeezeSlope (l z : ℝ) : ℝ := if z ≤ l / 2 then 1 else l ^ 2 / (4 * z ^ 2)

theorem squeeze_deriv (l z : ℝ) (hl : 0 < l) (hz : 0 < z) : HasDerivAt (squeeze l) (squeezeSlope l z) z := by
  have hB : ∀ z, 0 < z → HasDerivAt (fun z => l - l ^ 2 / (4 * z)) (l ^ 2 / (4 * z ^ 2)) z := by
    intro z hz
    refine (((hasDerivAt_const z (l ^ 2)).div ((hasDerivAt_id' z).const_mul 4) (by positivity)).const_sub l).congr_deriv ?_
    field_simp
    ring
  rcases lt_trichotomy z (l / 2) with h | h | h
  · have he : squeeze l =ᶠ[nhds z] fun z => z := by
      filter_upwards [gt_mem_nhds h] with x hx
      unfold squeeze; rw [if_pos hx.le]
    unfold squeezeSlope; rw [if_pos h.le]
    exact (hasDerivAt_id' z).congr_of_eventuallyEq he
  · unfold squeezeSlope; rw [if_pos h.le]
    refine hasDerivAt_either _ _ _ _ _ (hasDerivAt_id' z) ((hB z hz).congr_deriv ?_) ?_ fun x => ?_
    · rw [h]; field_simp; ring
    · rw [h]; field_simp; ring
    · unfold squeeze
      by_cases hx : x ≤ l / 2
      · left; rw [if_pos hx]
      · right; rw [if_neg hx]
  · have he : squeeze l =ᶠ[nhds z] fun z => l - l ^ 2 / (4 * z) := by
      filter_upwards [lt_mem_nhds h] with x hx
      unfold squeeze; rw [if_neg (not_le.2 hx)]
    unfold squeezeSlope; rw [if_neg (not_le.2 h)]
    exact (hB z hz).congr_of_eventuallyEq he

theorem squeeze_lt (l z : ℝ) (hl : 0 < l) (hz : 0 ≤ z) : 0 ≤ squeeze l z ∧ squeeze l z < l := by
  unfold squeeze
  split
  · rename_i h; exact ⟨hz, by linarith⟩
  · rename_i h
    have hz' : 0 < z := by linarith
    constructor
    · rw [sub_nonneg, div_le_iff₀ (by positivity)]; nlinarith
    · have : 0 < l ^ 2 / (4 * z) := by positivity
      linarith

theorem punch3 (p : P3) (hl : 0 < p.leff) (x : Short) (hx : 0 ≤ x.dl) :
    p.punch x = ⟨squeeze p.leff x.dl, x.dvd * squeezeSlope p.leff x.dl, x.g * squeezeSlope p.leff x.dl, x.d * squeezeSlope p.leff x.dl,
      x.b * squeezeSlope p.leff x.dl⟩ := by
  unfold P3.punch squeeze squeezeSlope
  rw [show p.leff * (1 / 2) = p.leff / 2 by ring]
  by_cases h : p.leff / 2 < x.dl
  · have h0 : 0 < x.dl := by linarith
    simp only [if_pos h, if_neg (not_le.2 h)]
    have e1 : p.leff * p.leff / (x.dl * 4) = p.leff ^ 2 / (4 * x.dl) := by ring
    have e2 : (p.leff - (p.leff - p.leff ^ 2 / (4 * x.dl))) * (p.leff - (p.leff - p.leff ^ 2 / (4 * x.dl))) * 4 / (p.leff * p.leff) =
        p.leff ^ 2 / (4 * x.dl ^ 2) := by field_simp; ring
    rw [e1, e2]
  · simp only [if_neg h, if_pos (not_lt.1 h), mul_one]

/-- in saturation, with shortening -/
theorem on_short (p : P3) (b : Body) (hv : p.vmax = none) (hF : 0 < 1 + b.fbody) (hl : 0 < p.leff) (vgsx vds : ℝ) (ha : p.alpha ≠ 0)
    (h : (vgsx - p.vthAt b vds) / (1 + b.fbody) < vds) (hu0 : vgsx - p.vthAt b vds ≠ 0) :
    let u := vgsx - p.vthAt b vds
    let V := u / (1 + b.fbody)
    let fg := 1 / (p.theta * u + 1)
    let o := p.on b vgsx vds
    let z := Real.sqrt (p.kappa * p.alpha * (vds - V))
    let lf := 1 / (1 - squeeze p.leff z / p.leff)
    let S := p.beta * fg * par u b.fbody vds * lf / (p.leff - squeeze p.leff z) * (z * (1 / 2) / (vds - V) * squeezeSlope p.leff z)
    let cg := p.beta * fg * (p.sigma * V) - p.theta * fg * fg * (p.beta * par u b.fbody vds) * p.sigma
    let cm := p.beta * fg * V - p.theta * fg * fg * (p.beta * par u b.fbody vds)
    let cb := p.beta * fg * (-(b.dqb * V) - b.dfbody / 2 * V ^ 2)
    o.ids = p.beta * fg * par u b.fbody vds * lf ∧ o.gds0 = cg * lf - S ∧
    o.gm = cm * lf + (cg * lf - S) * (1 / (1 + b.fbody)) ∧ o.gds = (cg * lf - S) * (1 / (1 + b.fbody) * p.sigma) + S ∧
    o.gmb = cb * lf + (cg * lf - S) * (-(1 / (1 + b.fbody) * b.dqb) - V * b.dfbody * (1 / (1 + b.fbody))) ∧
    o.satG = 1 / (1 + b.fbody) ∧ o.zero = false := by
  intro u V fg o z lf S cg cm cb
  have hV0 : V ≠ 0 := div_ne_zero hu0 hF.ne'
  have hpar : par u b.fbody vds = (u - (b.fbody + 1) * (1 / 2) * V) * V := by
    rw [par_min hF, min_eq_right (show u / (1 + b.fbody) ≤ vds from h.le)]
  have hcur : p.cur b (p.drive b vgsx vds) (p.satv b (p.drive b vgsx vds)) V =
      ⟨p.beta * fg * par u b.fbody vds, cm, cg, cb, 0, 0, 0, 0⟩ := by
    unfold P3.cur P3.drive
    simp only [hv]
    rw [show vgsx - p.vthAt b vds = u from rfl, show 1 / (p.theta * u + 1) = fg from rfl]
    simp only [cm, cg, cb, hpar]
    have hVu : u = V * (1 + b.fbody) := by simp only [V]; field_simp
    congr 1
    · ring
    · ring
    · linear_combination (p.beta * fg) * hVu
    · ring
  have hz : Real.sqrt (p.kappa * (vds - V) * p.alpha) = z := by
    simp only [z]; congr 1; ring
  have ho : o = ⟨p.beta * fg * par u b.fbody vds * lf, cm * lf + (cg * lf - S) * (1 / (1 + b.fbody)),
      (cg * lf - S) * (1 / (1 + b.fbody) * p.sigma) + S,
      cb * lf + (cg * lf - S) * (-(1 / (1 + b.fbody) * b.dqb) - V * b.dfbody * (1 / (1 + b.fbody))), cg * lf - S, V, 1 / (1 + b.fbody), false⟩ := by
    show p.on b vgsx vds = _
    unfold P3.on
    have hs := satv3 p b hv (p.drive b vgsx vds)
    rw [show (p.drive b vgsx vds).vc = u from rfl, show u / (1 + b.fbody) = V from rfl] at hs
    rw [hs] at hcur
    simp only [hs]
    have h' : V < vds := h
    simp only [if_pos h', if_neg hV0, if_pos (show V < vds ∧ p.alpha ≠ 0 from ⟨h', ha⟩), hcur]
    unfold P3.shorten
    simp only [hv, hz]
    rw [punch3 p hl _ (Real.sqrt_nonneg _)]
    simp only
    rw [show 1 / (1 - squeeze p.leff z / p.leff) = lf from rfl]
    have eS : p.beta * fg * par u b.fbody vds * lf / (p.leff - squeeze p.leff z) * (z * (1 / 2) / (vds - V) * squeezeSlope p.leff z) = S := rfl
    have eS' : p.beta * fg * par u b.fbody vds * lf / (p.leff - squeeze p.leff z) * (-(z * (1 / 2) / (vds - V)) * squeezeSlope p.leff z) = -S := by
      rw [← eS]; ring
    rw [eS', eS]
    congr 1 <;> ring
  rw [ho]
  exact ⟨rfl, rfl, rfl, rfl, rfl, rfl, rfl⟩

/-! ## Current -/

/-- what is asked of a device: a surface potential, a length, a bulk that is not forward biased, a charge in it -/
structure P3.Ok (p : P3) (vbs : ℝ) : Prop where
  phi : 0 < p.tphi
  len : 0 < p.leff
  doped : p.Doped
  back : vbs ≤ 0
  part : p.part vbs ≠ 0
  F : 0 < 1 + p.F vbs

theorem squeeze_zero (l : ℝ) (hl : 0 < l) : squeeze l 0 = 0 := by unfold squeeze; rw [if_pos (by linarith)]

theorem chan_plain (p : P3) (hl : 0 < p.leff) (u f vds : ℝ) (h : p.alpha = 0 ∨ vds ≤ u / (1 + f)) :
    p.chan u f vds = p.beta / (1 + p.theta * u) * par u f vds := by
  unfold P3.chan
  have : p.kappa * p.alpha * pos (vds - u / (1 + f)) = 0 := by
    rcases h with h | h
    · rw [h]; ring
    · rw [show pos (vds - u / (1 + f)) = 0 from max_eq_right (by linarith)]; ring
  rw [this, Real.sqrt_zero, squeeze_zero _ hl, zero_div, sub_zero, div_one]

/-- the shortcut -/
theorem on_shortcut (p : P3) (b : Body) (vgsx vds : ℝ)
    (h : (if (p.satv b (p.drive b vgsx vds)).vdsat < vds then (p.satv b (p.drive b vgsx vds)).vdsat else vds) = 0) :
    p.on b vgsx vds = ⟨0, 0, (p.drive b vgsx vds).beta * (p.drive b vgsx vds).vc, 0, 0, (p.satv b (p.drive b vgsx vds)).vdsat,
      (p.satv b (p.drive b vgsx vds)).g, true⟩ := by
  unfold P3.on
  simp only [if_pos h]

/-- the channel, whatever its state -/
theorem on_ids (p : P3) (b : Body) (hv : p.vmax = none) (hF : 0 < 1 + b.fbody) (hl : 0 < p.leff) (vgsx vds : ℝ) :
    (p.on b vgsx vds).ids = p.chan (vgsx - p.vthAt b vds) b.fbody vds := by
  by_cases h : p.alpha = 0 ∨ vds ≤ (vgsx - p.vthAt b vds) / (1 + b.fbody)
  · rw [(on_plain p b hv hF vgsx vds h).1, chan_plain p hl _ _ _ h, add_comm 1 (p.theta * _)]; ring
  · push Not at h
    obtain ⟨ha, hs⟩ := h
    by_cases hu : vgsx - p.vthAt b vds = 0
    · have h0 : par (vgsx - p.vthAt b vds) b.fbody vds = 0 := by
        rw [par_above hs.le, hu]; ring
      have hz : (p.on b vgsx vds).ids = 0 := by
        rw [on_shortcut p b vgsx vds]
        have e : (p.satv b (p.drive b vgsx vds)).vdsat = 0 := by
          rw [satv3 p b hv]
          show (vgsx - p.vthAt b vds) / (1 + b.fbody) = 0
          rw [hu, zero_div]
        rw [hu, zero_div] at hs
        rw [e, if_pos hs]
      rw [hz]; unfold P3.chan; rw [h0]; ring
    · rw [(on_short p b hv hF hl vgsx vds ha hs hu).1]
      unfold P3.chan
      rw [show pos (vds - (vgsx - p.vthAt b vds) / (1 + b.fbody)) = vds - (vgsx - p.vthAt b vds) / (1 + b.fbody) from max_eq_left (by linarith),
        add_comm 1 (p.theta * _)]
      ring

theorem on_zero (p : P3) (b : Body) (vgsx vds : ℝ) (h : (p.on b vgsx vds).zero = true) :
    (p.on b vgsx vds).ids = 0 ∧ (p.on b vgsx vds).gm = 0 ∧ (p.on b vgsx vds).gmb = 0 ∧ (p.on b vgsx vds).gds0 = 0 := by
  by_cases h0 : (if (p.satv b (p.drive b vgsx vds)).vdsat < vds then (p.satv b (p.drive b vgsx vds)).vdsat else vds) = 0
  · rw [on_shortcut p b vgsx vds h0]; exact ⟨rfl, rfl, rfl, rfl⟩
  · exfalso
    unfold P3.on at h
    simp only [if_neg h0] at h
    split at h <;> simp at h

/-- below threshold, whether or not by the shortcut -/
theorem weak_out (p : P3) (b : Body) (vgs vds : ℝ) :
    let n := p.vt * p.xn b
    let von := p.vthAt b vds + n
    let o := p.on b von vds
    let w := Real.exp ((vgs - von) / n)
    (p.weak b vgs vds).ids = o.ids * w ∧ (p.weak b vgs vds).gm = o.ids * w / n + o.gds0 * o.satG * w ∧
    (p.weak b vgs vds).gds = o.gds * w + (o.gm * w - o.ids * w / n) * -p.sigma ∧
    (p.weak b vgs vds).gmb = o.gmb * w + ((o.gm * w - o.ids * w / n) * (b.dqb + p.vt * P3.dxn b) -
      o.ids * w / n * (vgs - von) * P3.dxn b / p.xn b) ∧ (p.weak b vgs vds).von = von := by
  intro n von o w
  unfold P3.weak
  simp only
  by_cases hz : o.zero = true
  · obtain ⟨h1, h2, h3, h4⟩ := on_zero p b von vds hz
    have hz' : (p.on b (p.vthAt b vds + p.vt * p.xn b) vds).zero = true := hz
    simp only [if_pos hz']
    simp only [o, h1, h2, h3, h4]
    refine ⟨?_, ?_, ?_, ?_, rfl⟩
    · ring
    · ring
    · simp only [zero_mul, zero_div, sub_zero, add_zero]; rfl
    · ring
  · have hz' : ¬(p.on b (p.vthAt b vds + p.vt * p.xn b) vds).zero = true := hz
    simp only [if_neg hz']
    exact ⟨rfl, rfl, rfl, rfl, rfl⟩

theorem N3 (p : P3) (vbs : ℝ) (h : p.Ok vbs) : p.xn (p.body vbs) = p.N vbs := by
  obtain ⟨_, _, h3, _, _, h6, _⟩ := body3 p h.phi h.doped vbs h.back h.part
  unfold P3.xn P3.N
  rw [h3, h6]

/-- **C90, current.**  Without velocity saturation, at every drain and gate voltage level 3 gives the current of its equations. -/
theorem level3_current (p : P3) (hv : p.vmax = none) (vgs vds vbs : ℝ) (h : p.Ok vbs) :
    p.eval vgs vds vbs = some (p.out (p.body vbs) vgs vds) ∧ (p.out (p.body vbs) vgs vds).ids = p.I vgs vds vbs := by
  obtain ⟨h1, _, _, _, h5, _⟩ := body3 p h.phi h.doped vbs h.back h.part
  have hF : 0 < 1 + (p.body vbs).fbody := by rw [h5]; exact h.F
  have hth := vthAt3 p h.phi h.doped vds vbs h.back h.part
  refine ⟨?_, ?_⟩
  · unfold P3.eval; rw [h1]; simp
  · unfold P3.out P3.I
    simp only [hth, N3 p vbs h]
    by_cases hs : p.sub = true
    · simp only [if_pos hs]
      by_cases hw : vgs < p.vth vds vbs + p.vt * p.N vbs
      · have hw' : vgs - p.vth vds vbs < p.vt * p.N vbs := by linarith
        simp only [if_pos hw, if_pos hw']
        rw [(weak_out p (p.body vbs) vgs vds).1, on_ids p _ hv hF h.len]
        simp only [hth, N3 p vbs h, h5, add_sub_cancel_left, sub_add_eq_sub_sub]
      · have hw' : ¬ vgs - p.vth vds vbs < p.vt * p.N vbs := by linarith
        simp only [if_neg hw, if_neg hw']
        unfold P3.strong
        simp only [on_ids p _ hv hF h.len, hth, h5]
    · simp only [if_neg hs]
      by_cases hw : vgs ≤ p.vth vds vbs
      · simp only [if_pos hw, if_pos (sub_nonpos.2 hw)]
      · have hw' : ¬ vgs - p.vth vds vbs ≤ 0 := by rwa [sub_nonpos]
        simp only [if_neg hw, if_neg hw']
        unfold P3.strong
        simp only [on_ids p _ hv hF h.len, hth, h5]

/-! ## Slopes -/

/-- where the channel has slopes, `u` above threshold: not at the onset of shortening; with shortening, no static feedback -/
def P3.Smooth (p : P3) (u f vds : ℝ) : Prop :=
  p.alpha = 0 ∨ vds < u / (1 + f) ∨ (u / (1 + f) < vds ∧ u ≠ 0 ∧ 0 < p.kappa ∧ 0 < p.alpha ∧ p.eta = 0)

/-- the channel along a path -/
theorem chan_path (p : P3) (hv : p.vmax = none) (b : Body) (gt : ℝ) (U f d : ℝ → ℝ) (g' d' b' t : ℝ)
    (hU : HasDerivAt U (g' + p.sigma * d' - b.dqb * b') t) (hf : HasDerivAt f (b.dfbody * b') t) (hd : HasDerivAt d d' t)
    (hUt : U t = gt - p.vthAt b (d t)) (hft : f t = b.fbody) (hF : 0 < 1 + f t) (hm : 0 < 1 + p.theta * U t) (hl : 0 < p.leff)
    (hS : p.Smooth (U t) (f t) (d t)) :
    HasDerivAt (fun x => p.chan (U x) (f x) (d x))
      ((p.on b gt (d t)).gm * g' + (p.on b gt (d t)).gds * d' +
        ((p.on b gt (d t)).gmb + p.theta / (1 + p.theta * U t) * b.dqb * (p.on b gt (d t)).ids) * b') t := by
  have hm' : p.theta * U t + 1 ≠ 0 := by linarith
  have hJ := plain_path p U f d _ _ _ t hU hf hd hF hm'
  have hV : HasDerivAt (fun x => U x / (1 + f x)) _ t := hU.div (hf.const_add 1) hF.ne'
  have hFb : 0 < 1 + b.fbody := by rw [← hft]; exact hF
  have emo : p.theta * U t + 1 = 1 + p.theta * U t := by ring
  -- where it is the parabola
  have plain : (p.alpha = 0 ∨ d t < U t / (1 + f t)) → HasDerivAt (fun x => p.chan (U x) (f x) (d x))
      ((p.on b gt (d t)).gm * g' + (p.on b gt (d t)).gds * d' +
        ((p.on b gt (d t)).gmb + p.theta / (1 + p.theta * U t) * b.dqb * (p.on b gt (d t)).ids) * b') t := by
    intro hc
    have he : (fun x => p.chan (U x) (f x) (d x)) =ᶠ[nhds t] fun x => p.beta / (1 + p.theta * U x) * par (U x) (f x) (d x) := by
      rcases hc with hc | hc
      · exact Filter.Eventually.of_forall fun x => chan_plain p hl _ _ _ (Or.inl hc)
      · filter_upwards [(hV.continuousAt.sub hd.continuousAt).eventually_const_lt (show 0 < U t / (1 + f t) - d t by linarith)] with x hx
        exact chan_plain p hl _ _ _ (Or.inr (by have : 0 < U x / (1 + f x) - d x := hx; linarith))
    refine (hJ.congr_of_eventuallyEq he).congr_deriv ?_
    obtain ⟨o1, o2, o3, o4, _⟩ := on_plain p b hv hFb gt (d t) (by
      rcases hc with hc | hc
      · exact Or.inl hc
      · rw [hft, hUt] at hc; exact Or.inr hc.le)
    rw [o1, o2, o3, o4]
    simp only [← hUt, ← hft]
    generalize par (U t) (f t) (d t) = P
    generalize min (d t) (U t / (1 + f t)) = z
    rw [emo]
    generalize 1 + p.theta * U t = m at *
    have hm0 : m ≠ 0 := hm.ne'
    field_simp
    ring
  rcases hS with hS | hS | ⟨hS, hu0, hk, ha, he0⟩
  · exact plain (Or.inl hS)
  · exact plain (Or.inr hS)
  · have hsig : p.sigma = 0 := by unfold P3.sigma; rw [he0]; ring
    have hpos : 0 < p.kappa * p.alpha * (d t - U t / (1 + f t)) := by
      have : 0 < d t - U t / (1 + f t) := by linarith
      positivity
    have hz : 0 < Real.sqrt (p.kappa * p.alpha * (d t - U t / (1 + f t))) := Real.sqrt_pos.2 hpos
    have hZ : HasDerivAt (fun x => Real.sqrt (p.kappa * p.alpha * (d x - U x / (1 + f x)))) _ t :=
      ((hd.sub hV).const_mul (p.kappa * p.alpha)).sqrt hpos.ne'
    have hD : HasDerivAt (fun x => squeeze p.leff (Real.sqrt (p.kappa * p.alpha * (d x - U x / (1 + f x))))) _ t :=
      HasDerivAt.comp (h₂ := squeeze p.leff) t (squeeze_deriv p.leff _ hl hz) hZ
    have hlt := (squeeze_lt p.leff _ hl hz.le).2
    have hne : 1 - squeeze p.leff (Real.sqrt (p.kappa * p.alpha * (d t - U t / (1 + f t)))) / p.leff ≠ 0 := by
      have : squeeze p.leff (Real.sqrt (p.kappa * p.alpha * (d t - U t / (1 + f t)))) / p.leff < 1 := (div_lt_one hl).2 hlt
      linarith
    have hall : HasDerivAt (fun x => p.beta / (1 + p.theta * U x) * par (U x) (f x) (d x) /
        (1 - squeeze p.leff (Real.sqrt (p.kappa * p.alpha * (d x - U x / (1 + f x)))) / p.leff)) _ t :=
      hJ.div ((hD.div_const p.leff).const_sub 1) hne
    have he : (fun x => p.chan (U x) (f x) (d x)) =ᶠ[nhds t] fun x => p.beta / (1 + p.theta * U x) * par (U x) (f x) (d x) /
        (1 - squeeze p.leff (Real.sqrt (p.kappa * p.alpha * (d x - U x / (1 + f x)))) / p.leff) := by
      filter_upwards [(hd.continuousAt.sub hV.continuousAt).eventually_const_lt (show 0 < d t - U t / (1 + f t) by linarith)] with x hx
      have hx' : 0 < d x - U x / (1 + f x) := hx
      unfold P3.chan
      rw [show pos (d x - U x / (1 + f x)) = d x - U x / (1 + f x) from max_eq_left hx'.le]
    refine (hall.congr_of_eventuallyEq he).congr_deriv ?_
    obtain ⟨o1, o0, o2, o3, o4, _⟩ := on_short p b hv hFb hl gt (d t) ha.ne' (by rw [← hUt, ← hft]; exact hS) (by rw [← hUt]; exact hu0)
    rw [o1, o2, o3, o4]
    simp only [hsig, Pi.sub_apply, mul_zero, zero_mul, add_zero, sub_zero, zero_sub] at *
    simp only [← hUt, ← hft]
    rw [min_eq_right hS.le, emo]
    have hsq : Real.sqrt (p.kappa * p.alpha * (d t - U t / (1 + f t))) * Real.sqrt (p.kappa * p.alpha * (d t - U t / (1 + f t))) =
      p.kappa * p.alpha * (d t - U t / (1 + f t)) := Real.mul_self_sqrt hpos.le
    have hdv : p.kappa * p.alpha / (2 * Real.sqrt (p.kappa * p.alpha * (d t - U t / (1 + f t)))) =
        Real.sqrt (p.kappa * p.alpha * (d t - U t / (1 + f t))) * (1 / 2) / (d t - U t / (1 + f t)) := by
      rw [div_eq_div_iff (by positivity) (by linarith)]
      linear_combination -hsq
    generalize hE : Real.sqrt (p.kappa * p.alpha * (d t - U t / (1 + f t))) * (1 / 2) / (d t - U t / (1 + f t)) = E at *
    have hdv' : ∀ y, p.kappa * p.alpha * y / (2 * Real.sqrt (p.kappa * p.alpha * (d t - U t / (1 + f t)))) = y * E := by
      intro y; rw [← hdv]; ring
    rw [hdv']
    generalize squeezeSlope p.leff (Real.sqrt (p.kappa * p.alpha * (d t - U t / (1 + f t)))) = q at *
    generalize squeeze p.leff (Real.sqrt (p.kappa * p.alpha * (d t - U t / (1 + f t)))) = D at *
    have hlD : p.leff - D ≠ 0 := by linarith
    have hle : p.leff ≠ 0 := hl.ne'
    have e1 : (1 - D / p.leff) = (p.leff - D) / p.leff := by field_simp
    rw [e1]
    generalize par (U t) (f t) (d t) = P
    have hF0 : 1 + f t ≠ 0 := hF.ne'
    rw [show f t + 1 = 1 + f t by ring]
    generalize 1 + f t = mF at *
    generalize 1 + p.theta * U t = m at *
    have hm0 : m ≠ 0 := hm.ne'
    generalize p.leff - D = lD at *
    field_simp
    ring

theorem sigma3 (p : P3) : p.sigma = p.eta * 8.15e-22 / (p.cox * p.leff ^ 3) := by
  unfold P3.sigma
  norm_num
  ring

/-- the gate voltage above threshold at which the channel works: held at the border below it -/
noncomputable def P3.over (p : P3) (vgs vds vbs : ℝ) : ℝ :=
  let u := vgs - p.vth vds vbs
  if p.sub = true ∧ u < p.vt * p.N vbs then p.vt * p.N vbs else u

/-- where the current has slopes: not at the border between off and on or weak and strong; below the border no shortening -/
def P3.Fine (p : P3) (vgs vds vbs : ℝ) : Prop :=
  let u := vgs - p.vth vds vbs
  let n := p.vt * p.N vbs
  (p.sub = false ∧ u < 0) ∨
  (0 < 1 + p.theta * p.over vgs vds vbs ∧
    ((p.sub = true ∧ u < n ∧ 0 < n ∧ (p.alpha = 0 ∨ vds < n / (1 + p.F vbs))) ∨
    ((p.sub = false ∧ 0 < u ∨ p.sub = true ∧ n < u) ∧ p.Smooth u (p.F vbs) vds)))

/-- the current along a path, with what the slope with bulk voltage lacks -/
theorem level3_path (p : P3) (hv : p.vmax = none) (g d b : ℝ → ℝ) (g' d' b' t : ℝ) (hg : HasDerivAt g g' t)
    (hd : HasDerivAt d d' t) (hb : HasDerivAt b b' t) (h : p.Ok (b t)) (hf : p.Fine (g t) (d t) (b t)) :
    let o := p.out (p.body (b t)) (g t) (d t)
    HasDerivAt (fun x => p.I (g x) (d x) (b x)) (o.gm * g' + o.gds * d' +
      (o.gmb + p.theta / (1 + p.theta * p.over (g t) (d t) (b t)) * deriv p.Q (b t) * o.ids) * b') t := by
  intro o
  obtain ⟨_, b2, b3, b4, b5, b6, b7, b8⟩ := body3 p h.phi h.doped (b t) h.back h.part
  have hth := vthAt3 p h.phi h.doped (d t) (b t) h.back h.part
  have hQ : deriv p.Q (b t) = (p.body (b t)).dqb := b8.deriv
  have hFp : HasDerivAt (fun x => p.F (b x)) ((p.body (b t)).dfbody * b') t := b7.comp t hb
  have hQp : HasDerivAt (fun x => p.Q (b x)) ((p.body (b t)).dqb * b') t := b8.comp t hb
  have hvth : HasDerivAt (fun x => p.vth (d x) (b x)) (-(p.sigma * d') + (p.body (b t)).dqb * b') t := by
    have h1 := ((hd.const_mul p.sigma).const_sub p.vbi).add hQp
    have e : (fun x => p.vth (d x) (b x)) = (fun x => p.vbi - p.sigma * d x) + fun x => p.Q (b x) := by
      funext x; unfold P3.vth; rw [sigma3]; rfl
    rw [e]; exact h1
  have hu : HasDerivAt (fun x => g x - p.vth (d x) (b x)) (g' + p.sigma * d' - (p.body (b t)).dqb * b') t :=
    (hg.sub hvth).congr_deriv (by ring)
  have hn : HasDerivAt (fun x => p.vt * p.N (b x)) (p.vt * P3.dxn (p.body (b t)) * b') t := by
    have hl : HasDerivAt (fun x => p.tphi - b x) (-b') t := hb.const_sub p.tphi
    have hne : 2 * (p.tphi - b t) ≠ 0 := by have := h.phi; have := h.back; linarith
    have h1 := ((hQp.div (hl.const_mul 2) hne).const_add (1 + p.cfsox)).const_mul p.vt
    refine (show HasDerivAt (fun x => p.vt * p.N (b x)) _ t from h1).congr_deriv ?_
    unfold P3.dxn
    rw [b2, b3, b4, b6]
    have hr : 0 < Real.sqrt (p.tphi - b t) := Real.sqrt_pos.2 (by have := h.phi; have := h.back; linarith)
    have hss : Real.sqrt (p.tphi - b t) * Real.sqrt (p.tphi - b t) = p.tphi - b t :=
      Real.mul_self_sqrt (by have := h.phi; have := h.back; linarith)
    have e2 : -(1 / 2) / Real.sqrt (p.tphi - b t) / ((p.tphi - b t) * Real.sqrt (p.tphi - b t)) = -(1 / 2) / ((p.tphi - b t) * (p.tphi - b t)) := by
      rw [div_div, show Real.sqrt (p.tphi - b t) * ((p.tphi - b t) * Real.sqrt (p.tphi - b t)) =
        (p.tphi - b t) * (Real.sqrt (p.tphi - b t) * Real.sqrt (p.tphi - b t)) by ring, hss]
    rw [show p.Q (b t) * (-(1 / 2) / Real.sqrt (p.tphi - b t)) / ((p.tphi - b t) * Real.sqrt (p.tphi - b t)) =
      p.Q (b t) * (-(1 / 2) / Real.sqrt (p.tphi - b t) / ((p.tphi - b t) * Real.sqrt (p.tphi - b t))) by ring, e2]
    generalize p.tphi - b t = q at *
    have hq : q ≠ 0 := fun hq => hne (by rw [hq, mul_zero])
    field_simp
  -- strong inversion
  have strong : ∀ (_ : 0 < 1 + p.theta * (g t - p.vth (d t) (b t))), p.Smooth (g t - p.vth (d t) (b t)) (p.F (b t)) (d t) →
      HasDerivAt (fun x => p.chan (g x - p.vth (d x) (b x)) (p.F (b x)) (d x))
        ((p.on (p.body (b t)) (g t) (d t)).gm * g' + (p.on (p.body (b t)) (g t) (d t)).gds * d' + ((p.on (p.body (b t)) (g t) (d t)).gmb +
          p.theta / (1 + p.theta * (g t - p.vth (d t) (b t))) * (p.body (b t)).dqb * (p.on (p.body (b t)) (g t) (d t)).ids) * b') t :=
    fun hm hS => chan_path p hv (p.body (b t)) (g t) (fun x => g x - p.vth (d x) (b x)) (fun x => p.F (b x)) d g' d' b' t hu hFp hd
      (by rw [hth]) b5.symm h.F hm h.len hS
  rcases hf with ⟨hs, hoff⟩ | ⟨hm, ⟨hs, hw, hn0, hreg⟩ | ⟨hon, hS⟩⟩
  · -- off
    have ho : o.gm = 0 ∧ o.gds = 0 ∧ o.gmb = 0 ∧ o.ids = 0 := by
      show (p.out (p.body (b t)) (g t) (d t)).gm = 0 ∧ (p.out (p.body (b t)) (g t) (d t)).gds = 0 ∧
        (p.out (p.body (b t)) (g t) (d t)).gmb = 0 ∧ (p.out (p.body (b t)) (g t) (d t)).ids = 0
      unfold P3.out
      have h1 : g t ≤ p.vth (d t) (b t) := by linarith
      simp only [hs, Bool.false_eq_true, if_false, hth, if_pos h1, and_self]
    rw [ho.1, ho.2.1, ho.2.2.1, ho.2.2.2]
    have he : (fun x => p.I (g x) (d x) (b x)) =ᶠ[nhds t] fun _ => 0 := by
      filter_upwards [hu.continuousAt.eventually_lt_const hoff] with x hx
      unfold P3.I
      simp only [hs, Bool.false_eq_true, if_false, if_pos hx.le]
    exact ((hasDerivAt_const t (0 : ℝ)).congr_of_eventuallyEq he).congr_deriv (by ring)
  · -- weak
    have hov : p.over (g t) (d t) (b t) = p.vt * p.N (b t) := by unfold P3.over; simp only [if_pos (show p.sub = true ∧ _ from ⟨hs, hw⟩)]
    have hN := N3 p (b t) h
    have ho : o = p.weak (p.body (b t)) (g t) (d t) := by
      show p.out (p.body (b t)) (g t) (d t) = _
      unfold P3.out
      have h1 : g t < p.vth (d t) (b t) + p.vt * p.N (b t) := by linarith
      simp only [hs, if_true, hth, hN, if_pos h1]
    obtain ⟨w1, w2, w3, w4, _⟩ := weak_out p (p.body (b t)) (g t) (d t)
    simp only [hth, hN] at w1 w2 w3 w4
    have hm' : 0 < 1 + p.theta * (p.vt * p.N (b t)) := by rw [← hov]; exact hm
    have hC := chan_path p hv (p.body (b t)) (p.vth (d t) (b t) + p.vt * p.N (b t)) (fun x => p.vt * p.N (b x)) (fun x => p.F (b x)) d
      (-(p.sigma * d') + (p.body (b t)).dqb * b' + p.vt * P3.dxn (p.body (b t)) * b') d' b' t (hn.congr_deriv (by ring)) hFp hd
      (by rw [hth]; ring) b5.symm h.F hm' h.len (by
        rcases hreg with hr | hr
        · exact Or.inl hr
        · exact Or.inr (Or.inl hr))
    have hg0 : (p.on (p.body (b t)) (p.vth (d t) (b t) + p.vt * p.N (b t)) (d t)).gds0 = 0 := by
      refine (on_plain p (p.body (b t)) hv (by rw [b5]; exact h.F) _ (d t) ?_).2.2.2.2
      rcases hreg with hr | hr
      · exact Or.inl hr
      · right; rw [hth, b5, add_sub_cancel_left]; exact hr.le
    have hE : HasDerivAt (fun x => Real.exp ((g x - p.vth (d x) (b x) - p.vt * p.N (b x)) / (p.vt * p.N (b x)))) _ t :=
      ((hu.sub hn).div hn hn0.ne').exp
    have he : (fun x => p.I (g x) (d x) (b x)) =ᶠ[nhds t] (fun x => p.chan (p.vt * p.N (b x)) (p.F (b x)) (d x)) *
        fun x => Real.exp ((g x - p.vth (d x) (b x) - p.vt * p.N (b x)) / (p.vt * p.N (b x))) := by
      filter_upwards [(hu.continuousAt.sub hn.continuousAt).eventually_lt_const (show g t - p.vth (d t) (b t) - p.vt * p.N (b t) < 0 by linarith)]
        with x hx
      have hx' : g x - p.vth (d x) (b x) - p.vt * p.N (b x) < 0 := hx
      have hx'' : g x - p.vth (d x) (b x) < p.vt * p.N (b x) := by linarith
      unfold P3.I
      simp only [hs, if_true, if_pos hx'', Pi.mul_apply]
    refine ((hC.mul hE).congr_of_eventuallyEq he).congr_deriv ?_
    have hids := on_ids p (p.body (b t)) hv (by rw [b5]; exact h.F) h.len (p.vth (d t) (b t) + p.vt * p.N (b t)) (d t)
    rw [hth, b5, add_sub_cancel_left] at hids
    rw [ho, w1, w2, w3, w4, hg0, hov, hQ]
    simp only [Pi.sub_apply, Pi.div_apply, hN]
    rw [← hids]
    rw [show g t - p.vth (d t) (b t) - p.vt * p.N (b t) = g t - (p.vth (d t) (b t) + p.vt * p.N (b t)) by ring]
    generalize Real.exp ((g t - (p.vth (d t) (b t) + p.vt * p.N (b t))) / (p.vt * p.N (b t))) = w
    generalize p.on (p.body (b t)) (p.vth (d t) (b t) + p.vt * p.N (b t)) (d t) = oo
    have hvt0 : p.vt ≠ 0 := fun h0 => by rw [h0, zero_mul] at hn0; exact lt_irrefl _ hn0
    have hN0 : p.N (b t) ≠ 0 := fun h0 => by rw [h0, mul_zero] at hn0; exact lt_irrefl _ hn0
    generalize p.N (b t) = NN at *
    have hm0 : 1 + p.theta * (p.vt * NN) ≠ 0 := hm'.ne'
    generalize hMM : 1 + p.theta * (p.vt * NN) = M at *
    generalize p.theta / M = tM
    field_simp
    ring
  · -- strong
    have hov : p.over (g t) (d t) (b t) = g t - p.vth (d t) (b t) := by
      unfold P3.over
      have : ¬(p.sub = true ∧ g t - p.vth (d t) (b t) < p.vt * p.N (b t)) := by
        rintro ⟨h1, h2⟩
        rcases hon with ⟨h3, _⟩ | ⟨_, h3⟩
        · rw [h1] at h3; exact absurd h3 (by decide)
        · exact absurd h2 (not_lt.2 h3.le)
      simp only [if_neg this]
    rw [hov] at hm ⊢
    have hst := strong hm hS
    rw [hQ]
    have ho : o.ids = (p.on (p.body (b t)) (g t) (d t)).ids ∧ o.gm = (p.on (p.body (b t)) (g t) (d t)).gm ∧
        o.gds = (p.on (p.body (b t)) (g t) (d t)).gds ∧ o.gmb = (p.on (p.body (b t)) (g t) (d t)).gmb := by
      rcases hon with ⟨h3, h4⟩ | ⟨h3, h4⟩
      · have h1 : ¬ g t ≤ p.vth (d t) (b t) := by linarith
        have : o = p.strong (p.body (b t)) (p.vth (d t) (b t)) (g t) (d t) := by
          show p.out (p.body (b t)) (g t) (d t) = _
          unfold P3.out
          simp only [h3, Bool.false_eq_true, if_false, hth, if_neg h1]
        rw [this]; exact ⟨rfl, rfl, rfl, rfl⟩
      · have h1 : ¬ g t < p.vth (d t) (b t) + p.vt * p.N (b t) := by linarith
        have : o = p.strong (p.body (b t)) (p.vth (d t) (b t) + p.vt * p.N (b t)) (g t) (d t) := by
          show p.out (p.body (b t)) (g t) (d t) = _
          unfold P3.out
          simp only [h3, if_true, hth, N3 p (b t) h, if_neg h1]
        rw [this]; exact ⟨rfl, rfl, rfl, rfl⟩
    rw [ho.1, ho.2.1, ho.2.2.1, ho.2.2.2]
    have he : (fun x => p.I (g x) (d x) (b x)) =ᶠ[nhds t] fun x => p.chan (g x - p.vth (d x) (b x)) (p.F (b x)) (d x) := by
      rcases hon with ⟨h3, h4⟩ | ⟨h3, h4⟩
      · filter_upwards [hu.continuousAt.eventually_const_lt h4] with x hx
        unfold P3.I
        simp only [h3, Bool.false_eq_true, if_false, if_neg (not_le.2 hx)]
      · filter_upwards [(hu.continuousAt.sub hn.continuousAt).eventually_const_lt
          (show 0 < g t - p.vth (d t) (b t) - p.vt * p.N (b t) by linarith)] with x hx
        have hx' : 0 < g x - p.vth (d x) (b x) - p.vt * p.N (b x) := hx
        have hx'' : ¬ g x - p.vth (d x) (b x) < p.vt * p.N (b x) := by linarith
        unfold P3.I
        simp only [h3, if_true, if_neg hx'']
    exact hst.congr_of_eventuallyEq he

/-- the slopes: with gate and drain voltage right, with bulk voltage short by the effect of the bulk on mobility (d_mos3.model:338) -/
theorem level3_slopes (p : P3) (hv : p.vmax = none) (vgs vds vbs : ℝ) (h : p.Ok vbs) (hf : p.Fine vgs vds vbs) :
    let o := p.out (p.body vbs) vgs vds
    HasDerivAt (fun x => p.I x vds vbs) o.gm vgs ∧ HasDerivAt (fun x => p.I vgs x vbs) o.gds vds ∧
    HasDerivAt (fun x => p.I vgs vds x)
      (o.gmb + p.theta / (1 + p.theta * p.over vgs vds vbs) * deriv p.Q vbs * p.I vgs vds vbs) vbs := by
  intro o
  have hi : o.ids = p.I vgs vds vbs := (level3_current p hv vgs vds vbs h).2
  refine ⟨?_, ?_, ?_⟩
  · exact (level3_path p hv id (fun _ => vds) (fun _ => vbs) 1 0 0 vgs (hasDerivAt_id vgs) (hasDerivAt_const _ _) (hasDerivAt_const _ _)
      h hf).congr_deriv (by simp only [id]; ring)
  · exact (level3_path p hv (fun _ => vgs) id (fun _ => vbs) 0 1 0 vds (hasDerivAt_const _ _) (hasDerivAt_id vds) (hasDerivAt_const _ _)
      h hf).congr_deriv (by simp only [id]; ring)
  · rw [← hi]
    exact (level3_path p hv (fun _ => vgs) (fun _ => vds) id 0 0 1 vbs (hasDerivAt_const _ _) (hasDerivAt_const _ _) (hasDerivAt_id vbs)
      h hf).congr_deriv (by simp only [id]; ring)

/-- with no field effect on mobility all three are right -/
theorem level3_slopes_plain (p : P3) (hv : p.vmax = none) (ht : p.theta = 0) (vgs vds vbs : ℝ) (h : p.Ok vbs) (hf : p.Fine vgs vds vbs) :
    let o := p.out (p.body vbs) vgs vds
    HasDerivAt (fun x => p.I x vds vbs) o.gm vgs ∧ HasDerivAt (fun x => p.I vgs x vbs) o.gds vds ∧
    HasDerivAt (fun x => p.I vgs vds x) o.gmb vbs := by
  intro o
  obtain ⟨h1, h2, h3⟩ := level3_slopes p hv vgs vds vbs h hf
  exact ⟨h1, h2, h3.congr_deriv (by rw [ht]; ring)⟩

/-- with it the slope with bulk voltage is wrong whenever current flows and the bulk has an effect -/
theorem level3_theta_wrong (p : P3) (hv : p.vmax = none) (ht : p.theta ≠ 0) (vgs vds vbs : ℝ) (h : p.Ok vbs) (hf : p.Fine vgs vds vbs)
    (hQ : deriv p.Q vbs ≠ 0) (hI : p.I vgs vds vbs ≠ 0) : deriv (fun x => p.I vgs vds x) vbs ≠ (p.out (p.body vbs) vgs vds).gmb := by
  obtain ⟨_, _, h3⟩ := level3_slopes p hv vgs vds vbs h hf
  rw [h3.deriv]
  have hm : 0 < 1 + p.theta * p.over vgs vds vbs := by
    rcases hf with ⟨hs, hoff⟩ | ⟨hm, _⟩
    · exfalso
      apply hI
      unfold P3.I
      simp only [hs, Bool.false_eq_true, if_false, if_pos hoff.le]
    · exact hm
  intro he
  have : p.theta / (1 + p.theta * p.over vgs vds vbs) * deriv p.Q vbs * p.I vgs vds vbs = 0 := by linarith
  exact mul_ne_zero (mul_ne_zero (div_ne_zero ht hm.ne') hQ) hI this

/-- `chan` in saturation with shortening: slopes with what drives it and with drain voltage -/
theorem chan_short (p : P3) (hv : p.vmax = none) (hl : 0 < p.leff) (hk : 0 < p.kappa) (ha : 0 < p.alpha) (f : ℝ) (hF : 0 < 1 + f)
    (U d : ℝ → ℝ) (U' d' t : ℝ) (hU : HasDerivAt U U' t) (hd : HasDerivAt d d' t) (hm : 0 < 1 + p.theta * U t) (hu0 : U t ≠ 0)
    (hs : U t / (1 + f) < d t) :
    let fg := 1 / (p.theta * U t + 1)
    let V := U t / (1 + f)
    let z := Real.sqrt (p.kappa * p.alpha * (d t - V))
    let lf := 1 / (1 - squeeze p.leff z / p.leff)
    let S := p.beta * fg * par (U t) f (d t) * lf / (p.leff - squeeze p.leff z) * (z * (1 / 2) / (d t - V) * squeezeSlope p.leff z)
    let cm := p.beta * fg * V - p.theta * fg * fg * (p.beta * par (U t) f (d t))
    HasDerivAt (fun x => p.chan (U x) f (d x)) ((cm * lf - S * (1 / (1 + f))) * U' + S * d') t := by
  intro fg V z lf S cm
  let p0 : P3 := { p with eta := 0 }
  let b : Body := ⟨0, 0, 0, f, 0, 0, 0, false⟩
  have hs0 : p0.sigma = 0 := by unfold P3.sigma; show 0 * _ / _ = _; ring
  have hC := chan_path p0 hv b (U t + p0.vthAt b (d t)) U (fun _ => f) d U' d' 0 t (hU.congr_deriv (by rw [hs0]; ring))
    ((hasDerivAt_const t f).congr_deriv (by ring)) hd (by ring) rfl hF hm hl (Or.inr (Or.inr ⟨hs, hu0, hk, ha, rfl⟩))
  obtain ⟨_, _, o2, o3, _, _⟩ := on_short p0 b hv hF hl (U t + p0.vthAt b (d t)) (d t) ha.ne' (by rw [add_sub_cancel_right]; exact hs)
    (by rw [add_sub_cancel_right]; exact hu0)
  rw [o2, o3] at hC
  simp only [add_sub_cancel_right, hs0, mul_zero, zero_mul, sub_zero, zero_sub, zero_add, add_zero] at hC
  exact hC.congr_deriv (by ring)

/-- with static feedback (`eta`) and shortening the slopes in saturation are wrong: that with gate voltage too large, that with drain
voltage too small (d_mos3.model:428-430 put the threshold's part of `gds` through the slope of `vdsat`) -/
theorem level3_eta_wrong (p : P3) (hv : p.vmax = none) (hsub : p.sub = false) (vgs vds vbs : ℝ) (h : p.Ok vbs) (hk : 0 < p.kappa)
    (ha : 0 < p.alpha) (hb : 0 < p.beta) (ht : 0 ≤ p.theta) (hon : p.vth vds vbs < vgs) (hsat : (vgs - p.vth vds vbs) / (1 + p.F vbs) < vds) :
    let o := p.out (p.body vbs) vgs vds
    let sigma := p.eta * 8.15e-22 / (p.cox * p.leff ^ 3)
    ∃ K > 0, HasDerivAt (fun x => p.I x vds vbs) (o.gm - sigma * K / (1 + p.F vbs)) vgs ∧
      HasDerivAt (fun x => p.I vgs x vbs) (o.gds + sigma * K * (1 - sigma / (1 + p.F vbs))) vds := by
  intro o sigma
  obtain ⟨_, _, _, _, b5, _, _, _⟩ := body3 p h.phi h.doped vbs h.back h.part
  have hth := vthAt3 p h.phi h.doped vds vbs h.back h.part
  have hsig : p.sigma = sigma := sigma3 p
  have hu : 0 < vgs - p.vth vds vbs := by linarith
  have ho : o.gm = (p.on (p.body vbs) vgs vds).gm ∧ o.gds = (p.on (p.body vbs) vgs vds).gds := by
    have h1 : ¬ vgs ≤ p.vth vds vbs := by linarith
    have : o = p.strong (p.body vbs) (p.vth vds vbs) vgs vds := by
      show p.out (p.body vbs) vgs vds = _
      unfold P3.out
      simp only [hsub, Bool.false_eq_true, if_false, hth, if_neg h1]
    rw [this]; exact ⟨rfl, rfl⟩
  obtain ⟨_, _, o2, o3, _, _⟩ := on_short p (p.body vbs) hv (by rw [b5]; exact h.F) h.len vgs vds ha.ne' (by rw [hth, b5]; exact hsat)
    (by rw [hth]; exact hu.ne')
  simp only [hth, b5] at o2 o3
  have hm : 0 < 1 + p.theta * (vgs - p.vth vds vbs) := by positivity
  have hvd : HasDerivAt (fun x => p.vth x vbs) (-sigma) vds := by
    have h1 := (((hasDerivAt_id vds).const_mul p.sigma).const_sub p.vbi).add_const (p.Q vbs)
    have e : (fun x => p.vth x vbs) = fun x => p.vbi - p.sigma * id x + p.Q vbs := by
      funext x; unfold P3.vth; rw [sigma3]; rfl
    rw [e, ← hsig]; exact h1.congr_deriv (by ring)
  have hg := chan_short p hv h.len hk ha (p.F vbs) h.F (fun x => x - p.vth vds vbs) (fun _ => vds) 1 0 vgs
    ((hasDerivAt_id' vgs).sub_const _) (hasDerivAt_const _ _) hm hu.ne' hsat
  have hd := chan_short p hv h.len hk ha (p.F vbs) h.F (fun x => vgs - p.vth x vbs) id sigma 1 vds
    ((hvd.const_sub vgs).congr_deriv (by ring)) (hasDerivAt_id vds) hm hu.ne' hsat
  have hgI : (fun x => p.I x vds vbs) =ᶠ[nhds vgs] fun x => p.chan (x - p.vth vds vbs) (p.F vbs) vds := by
    filter_upwards [lt_mem_nhds hon] with x hx
    unfold P3.I
    simp only [hsub, Bool.false_eq_true, if_false, if_neg (show ¬ x - p.vth vds vbs ≤ 0 by linarith)]
  have hdI : (fun x => p.I vgs x vbs) =ᶠ[nhds vds] fun x => p.chan (vgs - p.vth x vbs) (p.F vbs) (id x) := by
    filter_upwards [hvd.continuousAt.eventually_lt_const hon] with x hx
    unfold P3.I
    simp only [hsub, Bool.false_eq_true, if_false, if_neg (show ¬ vgs - p.vth x vbs ≤ 0 by linarith), id]
  have hz0 : 0 ≤ Real.sqrt (p.kappa * p.alpha * (vds - (vgs - p.vth vds vbs) / (1 + p.F vbs))) := Real.sqrt_nonneg _
  have hlt := (squeeze_lt p.leff _ h.len hz0).2
  have hpar : par (vgs - p.vth vds vbs) (p.F vbs) vds = (vgs - p.vth vds vbs) ^ 2 / (2 * (1 + p.F vbs)) := par_above hsat.le
  refine ⟨(p.beta * (1 / (p.theta * (vgs - p.vth vds vbs) + 1)) * ((vgs - p.vth vds vbs) / (1 + p.F vbs)) -
    p.theta * (1 / (p.theta * (vgs - p.vth vds vbs) + 1)) * (1 / (p.theta * (vgs - p.vth vds vbs) + 1)) *
      (p.beta * par (vgs - p.vth vds vbs) (p.F vbs) vds)) *
    (1 / (1 - squeeze p.leff (Real.sqrt (p.kappa * p.alpha * (vds - (vgs - p.vth vds vbs) / (1 + p.F vbs)))) / p.leff)), ?_, ?_, ?_⟩
  · rw [hpar]
    have hlf : 0 < 1 - squeeze p.leff (Real.sqrt (p.kappa * p.alpha * (vds - (vgs - p.vth vds vbs) / (1 + p.F vbs)))) / p.leff := by
      have := (div_lt_one h.len).2 hlt
      linarith
    refine mul_pos ?_ (by positivity)
    have hF := h.F
    generalize vgs - p.vth vds vbs = u at *
    have e : p.beta * (1 / (p.theta * u + 1)) * (u / (1 + p.F vbs)) - p.theta * (1 / (p.theta * u + 1)) * (1 / (p.theta * u + 1)) *
        (p.beta * (u ^ 2 / (2 * (1 + p.F vbs)))) =
        p.beta * u * (1 + p.theta * u / 2) / ((1 + p.F vbs) * (1 + p.theta * u) ^ 2) := by
      have : p.theta * u + 1 = 1 + p.theta * u := by ring
      rw [this]
      have := hm.ne'
      have := hF.ne'
      field_simp
      ring
    rw [e]
    have : 0 < 1 + p.theta * u / 2 := by positivity
    positivity
  · refine (hg.congr_of_eventuallyEq hgI).congr_deriv ?_
    rw [ho.1, o2, hsig]
    ring
  · refine (hd.congr_of_eventuallyEq hdI).congr_deriv ?_
    rw [ho.2, o3, hsig]
    simp only [id]
    ring

/-- weak inversion in saturation with shortening: the slope with gate voltage is too small (d_mos3.model:452 adds `gds0 * dvsdvg`
though the current there depends on gate voltage only by the exponential) -/
theorem level3_sub_wrong (p : P3) (hv : p.vmax = none) (hsub : p.sub = true) (vgs vds vbs : ℝ) (h : p.Ok vbs) (hk : 0 < p.kappa)
    (ha : 0 < p.alpha) (hb : 0 < p.beta) (ht : 0 ≤ p.theta) (he : p.eta = 0) (hn : 0 < p.vt * p.N vbs)
    (hw : vgs < p.vth vds vbs + p.vt * p.N vbs) (hsat : p.vt * p.N vbs / (1 + p.F vbs) < vds) :
    let o := p.out (p.body vbs) vgs vds
    HasDerivAt (fun x => p.I x vds vbs) (o.ids / (p.vt * p.N vbs)) vgs ∧ o.gm < o.ids / (p.vt * p.N vbs) := by
  intro o
  obtain ⟨_, _, _, _, b5, _, _, _⟩ := body3 p h.phi h.doped vbs h.back h.part
  have hth := vthAt3 p h.phi h.doped vds vbs h.back h.part
  have hs0 : p.sigma = 0 := by unfold P3.sigma; rw [he]; ring
  have ho : o = p.weak (p.body vbs) vgs vds := by
    show p.out (p.body vbs) vgs vds = _
    unfold P3.out
    simp only [hsub, if_true, hth, N3 p vbs h, if_pos hw]
  obtain ⟨w1, w2, _⟩ := weak_out p (p.body vbs) vgs vds
  obtain ⟨o1, o0, _, _, _, o6, _⟩ := on_short p (p.body vbs) hv (by rw [b5]; exact h.F) h.len (p.vth vds vbs + p.vt * p.N vbs) vds ha.ne'
    (by rw [hth, b5, add_sub_cancel_left]; exact hsat) (by rw [hth, add_sub_cancel_left]; exact hn.ne')
  simp only [hth, b5, add_sub_cancel_left, N3 p vbs h, hs0, zero_mul, mul_zero, sub_zero, zero_sub] at w1 w2 o0 o1 o6
  rw [ho]
  refine ⟨?_, ?_⟩
  · have hwk : (p.weak (p.body vbs) vgs vds).ids = p.chan (p.vt * p.N vbs) (p.F vbs) vds *
        Real.exp ((vgs - p.vth vds vbs - p.vt * p.N vbs) / (p.vt * p.N vbs)) := by
      rw [w1, on_ids p _ hv (by rw [b5]; exact h.F) h.len, hth, b5, add_sub_cancel_left]
      congr 3; ring
    have hE : HasDerivAt (fun x => Real.exp ((x - p.vth vds vbs - p.vt * p.N vbs) / (p.vt * p.N vbs))) _ vgs :=
      ((((hasDerivAt_id' vgs).sub_const (p.vth vds vbs)).sub_const (p.vt * p.N vbs)).div_const (p.vt * p.N vbs)).exp
    have hev : (fun x => p.I x vds vbs) =ᶠ[nhds vgs] fun x => p.chan (p.vt * p.N vbs) (p.F vbs) vds *
        Real.exp ((x - p.vth vds vbs - p.vt * p.N vbs) / (p.vt * p.N vbs)) := by
      filter_upwards [gt_mem_nhds hw] with x hx
      unfold P3.I
      simp only [hsub, if_true, if_pos (show x - p.vth vds vbs < p.vt * p.N vbs by linarith)]
    refine ((hE.const_mul _).congr_of_eventuallyEq hev).congr_deriv ?_
    rw [hwk]; ring
  · rw [w2, w1, o0, o6]
    have hz : 0 < Real.sqrt (p.kappa * p.alpha * (vds - p.vt * p.N vbs / (1 + p.F vbs))) := Real.sqrt_pos.2 (by
      have : 0 < vds - p.vt * p.N vbs / (1 + p.F vbs) := by linarith
      positivity)
    have hlt := (squeeze_lt p.leff _ h.len hz.le).2
    have hpar : par (p.vt * p.N vbs) (p.F vbs) vds = (p.vt * p.N vbs) ^ 2 / (2 * (1 + p.F vbs)) := par_above hsat.le
    have hq : 0 < squeezeSlope p.leff (Real.sqrt (p.kappa * p.alpha * (vds - p.vt * p.N vbs / (1 + p.F vbs)))) := by
      unfold squeezeSlope
      split
      · exact one_pos
      · have := h.len; positivity
    rw [hpar]
    have hv0 : 0 < vds - p.vt * p.N vbs / (1 + p.F vbs) := by linarith
    have hF := h.F
    have hl := h.len
    generalize Real.sqrt (p.kappa * p.alpha * (vds - p.vt * p.N vbs / (1 + p.F vbs))) = z at *
    generalize squeezeSlope p.leff z = q at *
    generalize squeeze p.leff z = D at *
    have h1 : 0 < 1 - D / p.leff := by have := (div_lt_one h.len).2 hlt; linarith
    have h2 : 0 < p.leff - D := by linarith
    have hw0 := Real.exp_pos ((vgs - (p.vth vds vbs + p.vt * p.N vbs)) / (p.vt * p.N vbs))
    generalize Real.exp ((vgs - (p.vth vds vbs + p.vt * p.N vbs)) / (p.vt * p.N vbs)) = w at *
    generalize vds - p.vt * p.N vbs / (1 + p.F vbs) = e at *
    generalize p.vt * p.N vbs = n at *
    have : 0 < p.theta * n + 1 := by positivity
    have hpos : 0 < p.beta * (1 / (p.theta * n + 1)) * (n ^ 2 / (2 * (1 + p.F vbs))) * (1 / (1 - D / p.leff)) / (p.leff - D) *
        (z * (1 / 2) / e * q) * (1 / (1 + p.F vbs)) * w := by positivity
    linarith

theorem lfact_bounds {l z : ℝ} (hl : 0 < l) (hz : 0 < z) (hzl : z ≤ l / 2) : 1 ≤ 1 / (1 - z / l) ∧ 1 / (1 - z / l) ≤ 2 := by
  have e : z / l ≤ 1 / 2 := by rw [div_le_iff₀ hl]; linarith
  have e0 : 0 < z / l := by positivity
  constructor
  · rw [le_div_iff₀ (by linarith)]; linarith
  · rw [div_le_iff₀ (by linarith)]; linarith

theorem onset_slope {K l P z e T : ℝ} (hl : 0 < l) (hP : 0 < P) (hz : 0 < z) (hT : 0 ≤ T) (he : 0 < e) (hzz : z * z = K * e)
    (hzl : z ≤ l / 2) (hzP : z < P * K / (2 * l * (T + 1))) :
    T + 1 < P * (1 / (1 - z / l)) / (l - z) * (z * (1 / 2) / e * 1) := by
  have hK : 0 < K := by
    have : 0 < K * e := by rw [← hzz]; positivity
    exact (pos_iff_pos_of_mul_pos this).2 he
  have e1 : z * (1 / 2) / e = K / (2 * z) := by
    rw [div_eq_div_iff he.ne' (by positivity)]
    linear_combination hzz
  rw [e1, mul_one]
  have e2 : T + 1 < P / l * (K / (2 * z)) := by
    rw [lt_div_iff₀ (by positivity)] at hzP
    rw [div_mul_div_comm, lt_div_iff₀ (by positivity)]
    linarith
  have hlf := (lfact_bounds hl hz hzl).1
  have e3 : P / l ≤ P * (1 / (1 - z / l)) / (l - z) := by
    have hlz : 0 < l - z := by linarith
    refine (div_le_div_of_nonneg_left hP.le hlz (by linarith)).trans ?_
    exact div_le_div_of_nonneg_right (le_mul_of_one_le_right hP.le hlf) hlz.le
  exact e2.trans_le (mul_le_mul_of_nonneg_right e3 (by positivity))

/-- past the onset of saturation the slope with drain voltage grows without bound and that with gate voltage falls without bound: the
current of the law does so (shortening starts as a root), so the corner is not one where two slopes meet -/
theorem level3_onset (p : P3) (hv : p.vmax = none) (hsub : p.sub = false) (he : p.eta = 0) (vgs vbs : ℝ) (h : p.Ok vbs) (hk : 0 < p.kappa)
    (ha : 0 < p.alpha) (hb : 0 < p.beta) (ht : 0 ≤ p.theta) (hon : p.vth 0 vbs < vgs) (M : ℝ) :
    ∃ e > 0, ∀ vds, (vgs - p.vth 0 vbs) / (1 + p.F vbs) < vds → vds < (vgs - p.vth 0 vbs) / (1 + p.F vbs) + e →
      M < deriv (fun x => p.I vgs x vbs) vds ∧ deriv (fun x => p.I x vds vbs) vgs < -M := by
  have hvth : ∀ vds, p.vth vds vbs = p.vth 0 vbs := by intro vds; unfold P3.vth; rw [he]; ring
  obtain ⟨_, _, _, _, b5, _, _, _⟩ := body3 p h.phi h.doped vbs h.back h.part
  have hs0 : p.sigma = 0 := by unfold P3.sigma; rw [he]; ring
  have hu : 0 < vgs - p.vth 0 vbs := by linarith
  have hF := h.F
  have hl := h.len
  set u := vgs - p.vth 0 vbs with hudef
  set m := 1 + p.F vbs with hmdef
  have hfg : 0 < p.theta * u + 1 := by positivity
  have hK : 0 < p.kappa * p.alpha := by positivity
  set P := p.beta * (1 / (p.theta * u + 1)) * (u ^ 2 / (2 * m)) with hP
  have hP0 : 0 < P := by positivity
  set cm := p.beta * (1 / (p.theta * u + 1)) * (u / m) - p.theta * (1 / (p.theta * u + 1)) * (1 / (p.theta * u + 1)) * (p.beta * (u ^ 2 / (2 * m)))
    with hcm
  set T := max (max M (m * (M + 2 * |cm|))) 0 with hT
  have hT0 : 0 ≤ T := le_max_right _ _
  set z0 := min (p.leff / 2) (P * (p.kappa * p.alpha) / (2 * p.leff * (T + 1))) with hz0
  have hz0p : 0 < z0 := by
    refine lt_min (by linarith) ?_
    positivity
  refine ⟨z0 ^ 2 / (p.kappa * p.alpha), by positivity, fun vds h1 h2 => ?_⟩
  have hfine : p.Fine vgs vds vbs := by
    refine Or.inr ⟨?_, Or.inr ⟨Or.inl ⟨hsub, by rw [hvth]; exact hu⟩, Or.inr (Or.inr ⟨by rw [hvth]; exact h1, by rw [hvth]; exact hu.ne', hk, ha, he⟩)⟩⟩
    unfold P3.over
    simp only [hsub, Bool.false_eq_true, false_and, if_false, hvth]
    rw [add_comm]; exact hfg
  obtain ⟨s1, s2, _⟩ := level3_slopes p hv vgs vds vbs h hfine
  rw [s1.deriv, s2.deriv]
  have hth := vthAt3 p h.phi h.doped vds vbs h.back h.part
  have ho : (p.out (p.body vbs) vgs vds).gm = (p.on (p.body vbs) vgs vds).gm ∧
      (p.out (p.body vbs) vgs vds).gds = (p.on (p.body vbs) vgs vds).gds := by
    have h1 : ¬ vgs ≤ p.vth 0 vbs := by linarith
    have : p.out (p.body vbs) vgs vds = p.strong (p.body vbs) (p.vth vds vbs) vgs vds := by
      unfold P3.out
      simp only [hsub, Bool.false_eq_true, if_false, hth, hvth, if_neg h1]
    rw [this]; exact ⟨rfl, rfl⟩
  obtain ⟨_, _, o2, o3, _, _⟩ := on_short p (p.body vbs) hv (by rw [b5]; exact h.F) h.len vgs vds ha.ne'
    (by rw [hth, b5, hvth]; exact h1) (by rw [hth, hvth]; exact hu.ne')
  rw [hth, hvth, b5] at o2 o3
  simp only [← hudef, ← hmdef, hs0, mul_zero, zero_mul, sub_zero, zero_sub, zero_add, par_above h1.le] at o2 o3
  rw [ho.1, ho.2, o2, o3]
  simp only [← hmdef, ← hP, ← hcm]
  have hd0 : 0 < vds - u / m := by linarith
  have hKe : 0 < p.kappa * p.alpha * (vds - u / m) := by positivity
  have hz : 0 < Real.sqrt (p.kappa * p.alpha * (vds - u / m)) := Real.sqrt_pos.2 hKe
  have hss : Real.sqrt (p.kappa * p.alpha * (vds - u / m)) * Real.sqrt (p.kappa * p.alpha * (vds - u / m)) = p.kappa * p.alpha * (vds - u / m) :=
    Real.mul_self_sqrt hKe.le
  have hzlt : Real.sqrt (p.kappa * p.alpha * (vds - u / m)) < z0 := by
    rw [Real.sqrt_lt' hz0p]
    have : vds - u / m < z0 ^ 2 / (p.kappa * p.alpha) := by linarith
    rw [lt_div_iff₀ hK] at this
    linarith
  have hzl := (hzlt.trans_le (min_le_left _ _)).le
  have hzP := hzlt.trans_le (min_le_right _ _)
  have hTM : M ≤ T := (le_max_left _ _).trans (le_max_left _ _)
  have hTm : m * (M + 2 * |cm|) ≤ T := (le_max_right _ _).trans (le_max_left _ _)
  clear_value z0 T cm P m u
  clear o2 o3 ho s1 s2 hfine h hzlt
  generalize Real.sqrt (p.kappa * p.alpha * (vds - u / m)) = z at *
  have hsq : squeeze p.leff z = z := by unfold squeeze; rw [if_pos hzl]
  have hsl : squeezeSlope p.leff z = 1 := by unfold squeezeSlope; rw [if_pos hzl]
  rw [hsq, hsl]
  have hlf1 := lfact_bounds hl hz hzl
  have hS := onset_slope hl hP0 hz hT0 hd0 hss hzl hzP
  generalize P * (1 / (1 - z / p.leff)) / (p.leff - z) * (z * (1 / 2) / (vds - u / m) * 1) = S at *
  generalize 1 / (1 - z / p.leff) = lf at *
  refine ⟨by linarith, ?_⟩
  have hc : cm * lf ≤ 2 * |cm| := by
    have h3 : cm * lf ≤ |cm| * lf := mul_le_mul_of_nonneg_right (le_abs_self cm) (by linarith [hlf1.1])
    have h4 : |cm| * lf ≤ |cm| * 2 := mul_le_mul_of_nonneg_left hlf1.2 (abs_nonneg cm)
    linarith
  have hq : M + 2 * |cm| < S * (1 / m) := by
    rw [mul_one_div, lt_div_iff₀ hF]
    linarith
  linarith

/-! ## Velocity saturation -/

/-- the voltage where velocity saturates -/
noncomputable def P3.crit (p : P3) (vm u : ℝ) : ℝ := p.leff * vm * (1 + p.theta * u) / p.uo

noncomputable def P3.vsat (p : P3) (vm u f : ℝ) : ℝ :=
  u / (1 + f) + p.crit vm u - Real.sqrt ((u / (1 + f)) ^ 2 + p.crit vm u ^ 2)

/-- the channel with it, without shortening -/
noncomputable def P3.chanV (p : P3) (vm u f vds : ℝ) : ℝ :=
  let x := min vds (p.vsat vm u f)
  p.beta / (1 + p.theta * u) * ((u - (1 + f) / 2 * x) * x) / (1 + x / p.crit vm u)

theorem satV3 (p : P3) (b : Body) (vm : ℝ) (hv : p.vmax = some vm) (vgsx vds : ℝ) :
    (p.satv b (p.drive b vgsx vds)).vdsat = p.vsat vm (vgsx - p.vthAt b vds) b.fbody ∧
    (p.satv b (p.drive b vgsx vds)).onvdsc = 1 / p.crit vm (vgsx - p.vthAt b vds) := by
  have e : p.leff * vm / (p.uo * (1 / (p.theta * (vgsx - p.vthAt b vds) + 1))) = p.crit vm (vgsx - p.vthAt b vds) := by
    unfold P3.crit
    rw [mul_one_div, div_div_eq_mul_div, add_comm 1 (p.theta * _)]
  unfold P3.satv P3.drive P3.vsat
  simp only [hv]
  rw [e]
  refine ⟨?_, rfl⟩
  rw [mul_one_div, add_comm b.fbody 1, pow_two, pow_two]
  ring

/-- what the channel gives, no shortening -/
theorem on_vmax (p : P3) (b : Body) (vm : ℝ) (hv : p.vmax = some vm) (vgsx vds : ℝ)
    (h : p.alpha = 0 ∨ vds ≤ p.vsat vm (vgsx - p.vthAt b vds) b.fbody) :
    let u := vgsx - p.vthAt b vds
    let x := min vds (p.vsat vm u b.fbody)
    let fg := 1 / (p.theta * u + 1)
    let fd := 1 / (x * (1 / p.crit vm u) + 1)
    let J := (u - (b.fbody + 1) * (1 / 2) * x) * x
    let ar := fd * fd * x * (1 / p.crit vm u) * (p.theta * u + 1)
    let o := p.on b vgsx vds
    o.ids = p.beta * fg * J * fd ∧
    o.gm = (p.beta * fg * x - p.theta * fg * fg * (p.beta * J)) * fd + p.theta * fg * fg * ar * (p.beta * fg * J) ∧
    o.gds = (p.beta * fg * (u - (b.fbody + 1 - p.sigma) * x) - p.theta * fg * fg * p.sigma * (p.beta * J)) * fd +
      (p.theta * fg * fg * p.sigma * ar - fd * fd * (1 / p.crit vm u)) * (p.beta * fg * J) ∧
    o.gmb = p.beta * fg * ((-b.dqb - b.dfbody * (1 / 2) * x) * x) * fd - p.theta * fg * fg * b.dqb * ar * (p.beta * fg * J) := by
  intro u x fg fd J ar o
  obtain ⟨s1, s2⟩ := satV3 p b vm hv vgsx vds
  have hx : (if p.vsat vm u b.fbody < vds then p.vsat vm u b.fbody else vds) = x := by
    split
    · rename_i h; exact (min_eq_right h.le).symm
    · rename_i h; exact (min_eq_left (not_lt.1 h)).symm
  have hn : ¬(p.vsat vm u b.fbody < vds ∧ p.alpha ≠ 0) := by
    rintro ⟨h1, h2⟩
    rcases h with h | h
    · exact h2 h
    · exact absurd h1 (not_lt.2 h)
  have ho : o = if x = 0 then ⟨0, 0, p.beta * fg * u, 0, 0, p.vsat vm u b.fbody, (p.satv b (p.drive b vgsx vds)).g, true⟩ else
      let c := p.cur b (p.drive b vgsx vds) (p.satv b (p.drive b vgsx vds)) x
      ⟨c.ids, c.gm, c.gds, c.gmb, 0, p.vsat vm u b.fbody, (p.satv b (p.drive b vgsx vds)).g, false⟩ := by
    show p.on b vgsx vds = _
    unfold P3.on
    simp only [s1]
    rw [show vgsx - p.vthAt b vds = u from rfl, hx]
    simp only [if_neg hn]
    rfl
  rw [ho]
  by_cases h0 : x = 0
  · simp only [h0, if_true]
    have e1 : J = 0 := by simp only [J, h0, mul_zero]
    have e2 : fd = 1 := by simp only [fd, h0]; norm_num
    rw [e1, e2]
    refine ⟨?_, ?_, ?_, ?_⟩ <;> ring
  · simp only [if_neg h0]
    unfold P3.cur
    simp only [hv, s2]
    unfold P3.drive
    simp only
    rw [show vgsx - p.vthAt b vds = u from rfl, show 1 / (p.theta * u + 1) = fg from rfl, show 1 / (x * (1 / p.crit vm u) + 1) = fd from rfl]
    refine ⟨?_, ?_, ?_, ?_⟩
    · ring
    · ring
    · ring
    · ring

theorem strong3 (p : P3) (hsub : p.sub = false) (vgs vds vbs : ℝ) (h : p.Ok vbs) (hon : p.vth vds vbs < vgs) :
    (p.out (p.body vbs) vgs vds).ids = (p.on (p.body vbs) vgs vds).ids ∧ (p.out (p.body vbs) vgs vds).gm = (p.on (p.body vbs) vgs vds).gm ∧
    (p.out (p.body vbs) vgs vds).gds = (p.on (p.body vbs) vgs vds).gds ∧ (p.out (p.body vbs) vgs vds).gmb = (p.on (p.body vbs) vgs vds).gmb := by
  have hth := vthAt3 p h.phi h.doped vds vbs h.back h.part
  have : p.out (p.body vbs) vgs vds = p.strong (p.body vbs) (p.vth vds vbs) vgs vds := by
    unfold P3.out
    simp only [hsub, Bool.false_eq_true, if_false, hth, if_neg (not_le.2 hon)]
  rw [this]; exact ⟨rfl, rfl, rfl, rfl⟩

/-- current with velocity saturation, no shortening -/
theorem level3_vmax_current (p : P3) (vm : ℝ) (hv : p.vmax = some vm) (hsub : p.sub = false) (vgs vds vbs : ℝ) (h : p.Ok vbs)
    (hon : p.vth vds vbs < vgs) (hlin : p.alpha = 0 ∨ vds ≤ p.vsat vm (vgs - p.vth vds vbs) (p.F vbs)) :
    (p.out (p.body vbs) vgs vds).ids = p.chanV vm (vgs - p.vth vds vbs) (p.F vbs) vds := by
  obtain ⟨_, _, _, _, b5, _, _, _⟩ := body3 p h.phi h.doped vbs h.back h.part
  have hth := vthAt3 p h.phi h.doped vds vbs h.back h.part
  rw [(strong3 p hsub vgs vds vbs h hon).1, (on_vmax p (p.body vbs) vm hv vgs vds (by rw [hth, b5]; exact hlin)).1]
  simp only [hth, b5]
  unfold P3.chanV
  simp only
  rw [mul_one_div, mul_one_div, mul_one_div, add_comm (p.theta * _) 1, mul_one_div, add_comm (_ / p.crit vm _) 1, add_comm (p.F vbs) 1]

/-- its slopes below saturation: right but for the same lack in that with bulk voltage -/
theorem level3_vmax_slopes (p : P3) (vm : ℝ) (hv : p.vmax = some vm) (hvm : 0 < vm) (huo : 0 < p.uo) (ht : 0 ≤ p.theta) (vgs vds vbs : ℝ)
    (hsub : p.sub = false) (h : p.Ok vbs) (hon : p.vth vds vbs < vgs) (h0 : 0 ≤ vds) (hlin : vds < p.vsat vm (vgs - p.vth vds vbs) (p.F vbs)) :
    let o := p.out (p.body vbs) vgs vds
    let I := fun g d b => p.chanV vm (g - p.vth d b) (p.F b) d
    HasDerivAt (fun x => I x vds vbs) o.gm vgs ∧ HasDerivAt (fun x => I vgs x vbs) o.gds vds ∧
    HasDerivAt (fun x => I vgs vds x) (o.gmb + p.theta / (1 + p.theta * (vgs - p.vth vds vbs)) * deriv p.Q vbs * I vgs vds vbs) vbs := by
  intro o I
  obtain ⟨_, _, _, _, b5, _, b7, b8⟩ := body3 p h.phi h.doped vbs h.back h.part
  have hth := vthAt3 p h.phi h.doped vds vbs h.back h.part
  obtain ⟨s1, s2, s3, s4⟩ := strong3 p hsub vgs vds vbs h hon
  obtain ⟨o1, o2, o3, o4⟩ := on_vmax p (p.body vbs) vm hv vgs vds (Or.inr (by rw [hth, b5]; exact hlin.le))
  simp only [hth, b5, min_eq_left hlin.le] at o1 o2 o3 o4
  have hQ : deriv p.Q vbs = (p.body vbs).dqb := b8.deriv
  have hi : o.ids = I vgs vds vbs := level3_vmax_current p vm hv hsub vgs vds vbs h hon (Or.inr hlin.le)
  have hl := h.len
  have hF := h.F
  have hu0 : 0 < vgs - p.vth vds vbs := by linarith
  -- along a path
  have path : ∀ (U f d : ℝ → ℝ) (U' f' d' t : ℝ), HasDerivAt U U' t → HasDerivAt f f' t → HasDerivAt d d' t → 0 < U t → 0 < 1 + f t →
      0 ≤ d t → d t < p.vsat vm (U t) (f t) →
      HasDerivAt (fun x => p.chanV vm (U x) (f x) (d x))
        (p.beta * ((d t * U' - d t ^ 2 / 2 * f' + (U t - (1 + f t) * d t) * d') / ((1 + p.theta * U t) * (1 + d t / p.crit vm (U t)))
          - (U t - (1 + f t) / 2 * d t) * d t * (p.theta * U' + p.uo / (p.leff * vm) * d') / ((1 + p.theta * U t) * (1 + d t / p.crit vm (U t))) ^ 2)) t := by
    intro U f d U' f' d' t hU hf hd hUt hft hdt hlt
    have hcr : ∀ u, p.crit vm u = p.leff * vm * (1 + p.theta * u) / p.uo := fun _ => rfl
    have hmt : 0 < 1 + p.theta * U t := by positivity
    have hK : 0 < p.leff * vm := by positivity
    have hsc : ContinuousAt (fun x => p.vsat vm (U x) (f x)) t := by
      have c1 : ContinuousAt (fun x => U x / (1 + f x)) t := hU.continuousAt.div (continuousAt_const.add hf.continuousAt) hft.ne'
      have c2 : ContinuousAt (fun x => p.crit vm (U x)) t := by
        have : (fun x => p.crit vm (U x)) = fun x => p.leff * vm * (1 + p.theta * U x) / p.uo := rfl
        rw [this]
        exact (continuousAt_const.mul (continuousAt_const.add (continuousAt_const.mul hU.continuousAt))).div_const _
      exact (c1.add c2).sub (((c1.pow 2).add (c2.pow 2)).sqrt)
    -- one fraction
    have hA : HasDerivAt (fun x => (U x - (1 + f x) / 2 * d x) * d x) _ t := (hU.sub (((hf.const_add 1).div_const 2).mul hd)).mul hd
    have hB : HasDerivAt (fun x => 1 + p.theta * U x + d x * (p.uo / (p.leff * vm))) _ t :=
      ((hU.const_mul p.theta).const_add 1).add (hd.mul_const (p.uo / (p.leff * vm)))
    have hB0 : 1 + p.theta * U t + d t * (p.uo / (p.leff * vm)) ≠ 0 := by positivity
    have hall := (hA.div hB hB0).const_mul p.beta
    have he : (fun x => p.chanV vm (U x) (f x) (d x)) =ᶠ[nhds t]
        fun x => p.beta * ((U x - (1 + f x) / 2 * d x) * d x / (1 + p.theta * U x + d x * (p.uo / (p.leff * vm)))) := by
      have hmc : ContinuousAt (fun x => 1 + p.theta * U x) t := continuousAt_const.add (continuousAt_const.mul hU.continuousAt)
      filter_upwards [(hsc.sub hd.continuousAt).eventually_const_lt (show 0 < p.vsat vm (U t) (f t) - d t by linarith),
        hmc.eventually_const_lt hmt] with x hx hmx
      have hx' : d x < p.vsat vm (U x) (f x) := by
        have : 0 < p.vsat vm (U x) (f x) - d x := hx
        linarith
      unfold P3.chanV
      simp only [min_eq_left hx'.le, hcr]
      have e : (1 + p.theta * U x) * (1 + d x / (p.leff * vm * (1 + p.theta * U x) / p.uo)) =
          1 + p.theta * U x + d x * (p.uo / (p.leff * vm)) := by
        have := hmx.ne'
        generalize 1 + p.theta * U x = mm at *
        field_simp
      rw [← e, div_mul_eq_mul_div, div_div]
      ring
    refine (hall.congr_of_eventuallyEq he).congr_deriv ?_
    have e : (1 + p.theta * U t) * (1 + d t / p.crit vm (U t)) = 1 + p.theta * U t + d t * (p.uo / (p.leff * vm)) := by
      rw [hcr]
      have := hmt.ne'
      generalize 1 + p.theta * U t = mm at *
      field_simp
    rw [e]
    simp only [Pi.sub_apply, Pi.mul_apply]
    generalize p.uo / (p.leff * vm) = R at *
    generalize 1 + p.theta * U t + d t * R = D at *
    field_simp
    ring
  have hcr0 : 0 < p.crit vm (vgs - p.vth vds vbs) := by
    unfold P3.crit
    have : 0 < 1 + p.theta * (vgs - p.vth vds vbs) := by positivity
    positivity
  have hm0 : 0 < 1 + p.theta * (vgs - p.vth vds vbs) := by positivity
  have hcr : p.uo / (p.leff * vm) = (1 + p.theta * (vgs - p.vth vds vbs)) / p.crit vm (vgs - p.vth vds vbs) := by
    unfold P3.crit
    have := hm0.ne'
    generalize 1 + p.theta * (vgs - p.vth vds vbs) = mm at *
    field_simp
  have hsig : p.sigma = p.eta * 8.15e-22 / (p.cox * p.leff ^ 3) := sigma3 p
  have hvd : HasDerivAt (fun x => p.vth x vbs) (-p.sigma) vds := by
    have h1 := (((hasDerivAt_id vds).const_mul p.sigma).const_sub p.vbi).add_const (p.Q vbs)
    have e : (fun x => p.vth x vbs) = fun x => p.vbi - p.sigma * id x + p.Q vbs := by
      funext x; unfold P3.vth; rw [sigma3]; rfl
    rw [e]; exact h1.congr_deriv (by ring)
  have hvb : HasDerivAt (fun x => p.vth vds x) (p.body vbs).dqb vbs := b8.const_add _
  rw [s2, s3, s4, hQ, ← hi, s1, o1, o2, o3, o4]
  have finish : ∀ U' f' d' r : ℝ,
      p.beta * (1 / (p.theta * (vgs - p.vth vds vbs) + 1)) * (vds * U' - vds ^ 2 / 2 * f' + ((vgs - p.vth vds vbs) - (1 + p.F vbs) * vds) * d') *
          (1 / (vds * (1 / p.crit vm (vgs - p.vth vds vbs)) + 1)) -
        (p.beta * ((vgs - p.vth vds vbs) - (1 + p.F vbs) / 2 * vds) * vds) * (p.theta * U' + (1 + p.theta * (vgs - p.vth vds vbs)) /
          p.crit vm (vgs - p.vth vds vbs) * d') * ((1 / (p.theta * (vgs - p.vth vds vbs) + 1)) * (1 / (vds * (1 / p.crit vm (vgs - p.vth vds vbs)) + 1))) ^ 2 = r →
      p.beta * ((vds * U' - vds ^ 2 / 2 * f' + ((vgs - p.vth vds vbs) - (1 + p.F vbs) * vds) * d') / ((1 + p.theta * (vgs - p.vth vds vbs)) * (1 + vds / p.crit vm (vgs - p.vth vds vbs)))
          - ((vgs - p.vth vds vbs) - (1 + p.F vbs) / 2 * vds) * vds * (p.theta * U' + p.uo / (p.leff * vm) * d') / ((1 + p.theta * (vgs - p.vth vds vbs)) * (1 + vds / p.crit vm (vgs - p.vth vds vbs))) ^ 2) = r := by
    intro U' f' d' r hr
    rw [← hr, hcr]
    rw [mul_one_div vds, add_comm (vds / _) 1, add_comm (p.theta * _) 1]
    have hX : (0:ℝ) < 1 + vds / p.crit vm (vgs - p.vth vds vbs) := by positivity
    generalize (1 + p.theta * (vgs - p.vth vds vbs)) / p.crit vm (vgs - p.vth vds vbs) = R at *
    generalize 1 + vds / p.crit vm (vgs - p.vth vds vbs) = X at *
    generalize 1 + p.theta * (vgs - p.vth vds vbs) = mm at *
    field_simp
  refine ⟨?_, ?_, ?_⟩
  · refine (path (fun x => x - p.vth vds vbs) (fun _ => p.F vbs) (fun _ => vds) 1 0 0 vgs ((hasDerivAt_id' vgs).sub_const _)
      (hasDerivAt_const _ _) (hasDerivAt_const _ _) hu0 hF h0 hlin).congr_deriv (finish 1 0 0 _ ?_)
    rw [add_comm (p.theta * _) 1]
    generalize hc : p.crit vm (vgs - p.vth vds vbs) = c at *
    have hX : (0:ℝ) < vds * (1 / c) + 1 := by positivity
    generalize hXX : vds * (1 / c) + 1 = X at *
    have hd : vds * (1 / c) = X - 1 := by linarith
    generalize 1 + p.theta * (vgs - p.vth vds vbs) = mm at *
    rw [mul_assoc (1 / X * (1 / X)) vds (1 / c), hd]
    field_simp
    ring
  · refine (path (fun x => vgs - p.vth x vbs) (fun _ => p.F vbs) id p.sigma 0 1 vds ((hvd.const_sub vgs).congr_deriv (by ring))
      (hasDerivAt_const _ _) (hasDerivAt_id vds) hu0 hF h0 hlin).congr_deriv (finish p.sigma 0 1 _ ?_)
    rw [add_comm (p.theta * _) 1]
    generalize hc : p.crit vm (vgs - p.vth vds vbs) = c at *
    have hX : (0:ℝ) < vds * (1 / c) + 1 := by positivity
    generalize hXX : vds * (1 / c) + 1 = X at *
    have hd : vds * (1 / c) = X - 1 := by linarith
    generalize 1 + p.theta * (vgs - p.vth vds vbs) = mm at *
    rw [mul_assoc (1 / X * (1 / X)) vds (1 / c), hd]
    field_simp
    ring
  · refine (path (fun x => vgs - p.vth vds x) p.F (fun _ => vds) (-(p.body vbs).dqb) (p.body vbs).dfbody 0 vbs (hvb.const_sub vgs)
      b7 (hasDerivAt_const _ _) hu0 hF h0 hlin).congr_deriv (finish _ _ _ _ ?_)
    rw [add_comm (p.theta * _) 1]
    generalize hc : p.crit vm (vgs - p.vth vds vbs) = c at *
    have hX : (0:ℝ) < vds * (1 / c) + 1 := by positivity
    generalize hXX : vds * (1 / c) + 1 = X at *
    have hd : vds * (1 / c) = X - 1 := by linarith
    generalize 1 + p.theta * (vgs - p.vth vds vbs) = mm at *
    rw [mul_assoc (1 / X * (1 / X)) vds (1 / c), hd]
    field_simp
    ring

/-- with velocity saturation and no shortening the current is flat past saturation, but its slope with drain voltage is not zero
(d_mos3.model:351-356, 431-433 leave the slope at `vdsat` as that of the device) -/
theorem level3_vmax_wrong (p : P3) (vm : ℝ) (hv : p.vmax = some vm) (hvm : 0 < vm) (huo : 0 < p.uo) (ht : 0 ≤ p.theta) (hb : 0 < p.beta)
    (ha : p.alpha = 0) (he : p.eta = 0) (vgs vds vbs : ℝ) (hsub : p.sub = false) (h : p.Ok vbs) (hon : p.vth vds vbs < vgs)
    (hsat : p.vsat vm (vgs - p.vth vds vbs) (p.F vbs) < vds) :
    deriv (fun x => (p.out (p.body vbs) vgs x).ids) vds = 0 ∧ 0 < (p.out (p.body vbs) vgs vds).gds := by
  obtain ⟨_, _, _, _, b5, _, _, _⟩ := body3 p h.phi h.doped vbs h.back h.part
  have hvth : ∀ x, p.vth x vbs = p.vth vds vbs := by intro x; unfold P3.vth; rw [he]; ring
  have hs0 : p.sigma = 0 := by unfold P3.sigma; rw [he]; ring
  constructor
  · have hev : (fun x => (p.out (p.body vbs) vgs x).ids) =ᶠ[nhds vds] fun _ => (p.out (p.body vbs) vgs vds).ids := by
      filter_upwards [lt_mem_nhds hsat] with x hx
      rw [level3_vmax_current p vm hv hsub vgs x vbs h (by rw [hvth]; exact hon) (Or.inl ha),
        level3_vmax_current p vm hv hsub vgs vds vbs h hon (Or.inl ha), hvth x]
      unfold P3.chanV
      simp only [min_eq_right hx.le, min_eq_right hsat.le]
    rw [hev.deriv_eq, deriv_const]
  · have hth := vthAt3 p h.phi h.doped vds vbs h.back h.part
    rw [(strong3 p hsub vgs vds vbs h hon).2.2.1, (on_vmax p (p.body vbs) vm hv vgs vds (Or.inl ha)).2.2.1]
    simp only [hth, b5, hs0, min_eq_right hsat.le, mul_zero, zero_mul, sub_zero, zero_sub]
    have hu : 0 < vgs - p.vth vds vbs := by linarith
    have hF := h.F
    have hl := h.len
    have hm : 0 < p.theta * (vgs - p.vth vds vbs) + 1 := by positivity
    have hc : 0 < p.crit vm (vgs - p.vth vds vbs) := by
      unfold P3.crit
      rw [add_comm 1]; positivity
    have hx : p.vsat vm (vgs - p.vth vds vbs) (p.F vbs) = (vgs - p.vth vds vbs) / (1 + p.F vbs) + p.crit vm (vgs - p.vth vds vbs) -
        Real.sqrt (((vgs - p.vth vds vbs) / (1 + p.F vbs)) ^ 2 + p.crit vm (vgs - p.vth vds vbs) ^ 2) := rfl
    rw [hx]
    generalize hmm : p.theta * (vgs - p.vth vds vbs) + 1 = m at *
    generalize p.crit vm (vgs - p.vth vds vbs) = c at *
    have hA : 0 < (vgs - p.vth vds vbs) / (1 + p.F vbs) := by positivity
    have hua : vgs - p.vth vds vbs = (1 + p.F vbs) * ((vgs - p.vth vds vbs) / (1 + p.F vbs)) := by field_simp
    generalize (vgs - p.vth vds vbs) / (1 + p.F vbs) = a at *
    rw [hua, add_comm (p.F vbs) 1]
    generalize 1 + p.F vbs = w at *
    have hr2 : Real.sqrt (a ^ 2 + c ^ 2) * Real.sqrt (a ^ 2 + c ^ 2) = a ^ 2 + c ^ 2 := Real.mul_self_sqrt (by positivity)
    have hrc : c < Real.sqrt (a ^ 2 + c ^ 2) := by
      rw [Real.lt_sqrt hc.le]; nlinarith
    have hra : Real.sqrt (a ^ 2 + c ^ 2) < a + c := by
      rw [Real.sqrt_lt' (by positivity)]; nlinarith
    generalize Real.sqrt (a ^ 2 + c ^ 2) = r at *
    have hx0 : 0 < a + c - r := by linarith
    have hX : 0 < (a + c - r) * (1 / c) + 1 := by positivity
    have key : p.beta * (1 / m) * (w * a - w * (a + c - r)) * (1 / ((a + c - r) * (1 / c) + 1)) +
        -(1 / ((a + c - r) * (1 / c) + 1) * (1 / ((a + c - r) * (1 / c) + 1)) * (1 / c)) *
          (p.beta * (1 / m) * ((w * a - w * (1 / 2) * (a + c - r)) * (a + c - r))) =
        p.beta * (1 / m) * w * ((r - c) * (a + c - r) / c) / ((a + c - r) * (1 / c) + 1) ^ 2 := by
      have e : (a + c - r) * (1 / c) + 1 = (a + 2 * c - r) / c := by field_simp; ring
      rw [e]
      have h2 : a + 2 * c - r ≠ 0 := by linarith
      have hm0 : m ≠ 0 := hm.ne'
      field_simp
      ring_nf
      have : r ^ 2 = a ^ 2 + c ^ 2 := by rw [← hr2]; ring
      have r3 : r ^ 3 = r * (a ^ 2 + c ^ 2) := by rw [← this]; ring
      simp only [this, r3]
      ring
    rw [key]
    have : 0 < r - c := by linarith
    positivity

/-- and the slope of `vdsat` with gate voltage is too large: line 288 replaces `vdsat` before line 289 uses it -/
theorem level3_vdsat_wrong (p : P3) (vm : ℝ) (hv : p.vmax = some vm) (hvm : 0 < vm) (huo : 0 < p.uo) (ht : p.theta = 0) (hl : 0 < p.leff)
    (b : Body) (hF : 0 < 1 + b.fbody) (vgs vds : ℝ) (hon : p.vthAt b vds < vgs) :
    ∃ s, HasDerivAt (fun x => p.vsat vm (x - p.vthAt b vds) b.fbody) s vgs ∧ s < (p.satv b (p.drive b vgs vds)).g := by
  have hu : 0 < vgs - p.vthAt b vds := by linarith
  have hc0 : 0 < p.leff * vm / p.uo := by positivity
  have hcr : ∀ u, p.crit vm u = p.leff * vm / p.uo := by intro u; unfold P3.crit; rw [ht]; ring
  have ha : HasDerivAt (fun x => (x - p.vthAt b vds) / (1 + b.fbody)) (1 / (1 + b.fbody)) vgs :=
    (((hasDerivAt_id' vgs).sub_const _).div_const _)
  have hp : 0 < ((vgs - p.vthAt b vds) / (1 + b.fbody)) ^ 2 + (p.leff * vm / p.uo) ^ 2 := by positivity
  have hr : HasDerivAt (fun x => Real.sqrt (((x - p.vthAt b vds) / (1 + b.fbody)) ^ 2 + (p.leff * vm / p.uo) ^ 2)) _ vgs :=
    ((ha.pow 2).add_const ((p.leff * vm / p.uo) ^ 2)).sqrt hp.ne'
  have hall := (ha.add_const (p.leff * vm / p.uo)).sub hr
  refine ⟨_, (show HasDerivAt (fun x => p.vsat vm (x - p.vthAt b vds) b.fbody) _ vgs from by
    have e : (fun x => p.vsat vm (x - p.vthAt b vds) b.fbody) = fun x => (x - p.vthAt b vds) / (1 + b.fbody) + p.leff * vm / p.uo -
        Real.sqrt (((x - p.vthAt b vds) / (1 + b.fbody)) ^ 2 + (p.leff * vm / p.uo) ^ 2) := by
      funext x; unfold P3.vsat; rw [hcr]
    rw [e]; exact hall), ?_⟩
  have e1 : p.leff * vm / (p.uo * (1 / (0 * (vgs - p.vthAt b vds) + 1))) = p.leff * vm / p.uo := by norm_num
  unfold P3.satv P3.drive
  simp only [hv, ht, e1, Pi.pow_apply]
  rw [mul_one_div (vgs - p.vthAt b vds), add_comm b.fbody 1]
  generalize p.leff * vm / p.uo = c at *
  have hA : 0 < (vgs - p.vthAt b vds) / (1 + b.fbody) := by positivity
  generalize (vgs - p.vthAt b vds) / (1 + b.fbody) = a at *
  rw [show a * a + c * c = a ^ 2 + c ^ 2 by ring]
  have hrp : 0 < Real.sqrt (a ^ 2 + c ^ 2) := Real.sqrt_pos.2 hp
  have hrc : c < Real.sqrt (a ^ 2 + c ^ 2) := by rw [Real.lt_sqrt hc0.le]; nlinarith
  generalize Real.sqrt (a ^ 2 + c ^ 2) = r at *
  have e2 : 1 / (1 + b.fbody) * (1 - (a + (c - r)) / r) - (1 - c / r) * c * (-0 * (1 / (0 * (vgs - p.vthAt b vds) + 1)) *
      (1 / (0 * (vgs - p.vthAt b vds) + 1))) * (0 * (vgs - p.vthAt b vds) + 1) - (1 / (1 + b.fbody) - 2 * a * (1 / (1 + b.fbody)) / (2 * r)) =
      1 / (1 + b.fbody) * ((r - c) / r) := by
    have := hF.ne'
    generalize 1 + b.fbody = w at *
    field_simp
    ring
  have : 0 < 1 / (1 + b.fbody) * ((r - c) / r) := by
    have : 0 < r - c := by linarith
    positivity
  push_cast
  norm_num at *
  linarith

/-! ## Not a number -/

/-- `xj` given and `nsub` not: as soon as current flows the slope with bulk voltage is zero over zero (d_mos3.model:182) -/
theorem level3_nan (p : P3) (hs : p.short = true) (ha : p.alpha = 0) (vgs vds vbs : ℝ) (hf : p.flows (p.body vbs) vgs vds = true) :
    p.eval vgs vds vbs = none := by
  have hn : (p.body vbs).nan = true := by
    unfold P3.body P3.fshort
    simp [hs, ha]
  unfold P3.eval
  rw [hn, hf]; rfl

/-! ## Direction -/

theorem par_nonneg {u f d : ℝ} (hf : 0 < 1 + f) (hu : 0 ≤ u) (hd : 0 ≤ d) : 0 ≤ par u f d := by
  rw [par_min hf]
  have h0 : 0 ≤ u / (1 + f) := by positivity
  have h1 : 0 ≤ min d (u / (1 + f)) := le_min hd h0
  have h2 : (1 + f) * min d (u / (1 + f)) ≤ u := by
    calc (1 + f) * min d (u / (1 + f)) ≤ (1 + f) * (u / (1 + f)) := mul_le_mul_of_nonneg_left (min_le_right _ _) hf.le
      _ = u := by field_simp
  have h3 : 0 ≤ u - (f + 1) * (1 / 2) * min d (u / (1 + f)) := by nlinarith
  positivity

theorem chan_nonneg (p : P3) (hl : 0 < p.leff) (hb : 0 ≤ p.beta) (ht : 0 ≤ p.theta) {u f d : ℝ} (hf : 0 < 1 + f) (hu : 0 ≤ u) (hd : 0 ≤ d) :
    0 ≤ p.chan u f d := by
  unfold P3.chan
  have h1 := par_nonneg hf hu hd
  have h2 := (div_lt_one hl).2 (squeeze_lt p.leff _ hl (Real.sqrt_nonneg (p.kappa * p.alpha * pos (d - u / (1 + f))))).2
  have h3 : 0 < 1 - squeeze p.leff (Real.sqrt (p.kappa * p.alpha * pos (d - u / (1 + f)))) / p.leff := by linarith
  positivity

/-- the current never flows against the voltage -/
theorem level3_passive (p : P3) (hb : 0 ≤ p.beta) (ht : 0 ≤ p.theta) (vgs vds vbs : ℝ) (h : p.Ok vbs) (hn : p.sub = true → 0 ≤ p.vt * p.N vbs)
    (hd : 0 ≤ vds) : 0 ≤ p.I vgs vds vbs := by
  unfold P3.I
  simp only
  by_cases hs : p.sub = true
  · simp only [if_pos hs]
    split
    · exact mul_nonneg (chan_nonneg p h.len hb ht h.F (hn hs) hd) (Real.exp_pos _).le
    · rename_i hlt
      exact chan_nonneg p h.len hb ht h.F ((hn hs).trans (not_lt.1 hlt)) hd
  · simp only [if_neg hs]
    split
    · exact le_rfl
    · rename_i hlt
      exact chan_nonneg p h.len hb ht h.F (not_le.1 hlt).le hd

theorem chan_zero (p : P3) {u f : ℝ} (hf : 0 < 1 + f) (hu : 0 ≤ u) : p.chan u f 0 = 0 := by
  unfold P3.chan
  rw [par_below hf (by positivity)]; ring

theorem I3_zero (p : P3) (vgs vbs : ℝ) (h : p.Ok vbs) (hn : p.sub = true → 0 ≤ p.vt * p.N vbs) : p.I vgs 0 vbs = 0 := by
  unfold P3.I
  simp only
  by_cases hs : p.sub = true
  · simp only [if_pos hs]
    split
    · rw [chan_zero p h.F (hn hs), zero_mul]
    · rename_i hlt
      exact chan_zero p h.F ((hn hs).trans (not_lt.1 hlt))
  · simp only [if_neg hs]
    split
    · rfl
    · rename_i hlt
      exact chan_zero p h.F (not_le.1 hlt).le

/-- current of the device from drain to source -/
noncomputable def P3.flow (p : P3) (pol : ℝ) (v : Nodes) : ℝ :=
  if 0 ≤ pol * (v.d - v.s) then pol * p.I (pol * (v.g - v.s)) (pol * (v.d - v.s)) (pol * (v.b - v.s))
  else -pol * p.I (pol * (v.g - v.d)) (pol * (v.s - v.d)) (pol * (v.b - v.d))

/-- **C90, from any state.**  Without static feedback, with node voltages held, after finitely many iterations the current loaded is,
and stays, that of the law. -/
theorem level3_device (p : P3) (hv : p.vmax = none) (he : p.eta = 0) (h : ∀ vbs ≤ 0, p.Ok vbs)
    (hn : ∀ vbs ≤ 0, p.sub = true → 0 ≤ p.vt * p.N vbs) (c : Cfg) (hc : c.E = fun g d b => p.out (p.body b) g d)
    (hp : c.pol = 1 ∨ c.pol = -1) (v : Nodes) (h1 : c.pol * (v.b - v.s) ≤ 0) (h2 : c.pol * (v.b - v.d) ≤ 0) (s : St) :
    ∃ N, ∀ n, N ≤ n → ((St.doTr c false v)^[n] s).iDS v = p.flow c.pol v := by
  have hs0 : p.sigma = 0 := by unfold P3.sigma; rw [he]; ring
  obtain ⟨N, hN⟩ := settles c v (fun b => p.vbi + (p.body b).qb + if p.sub then p.vt * p.xn (p.body b) else 0) (by
    intro g d b
    rw [hc]
    have hth : p.vthAt (p.body b) d = p.vbi + (p.body b).qb := by unfold P3.vthAt; rw [hs0]; ring
    show (p.out (p.body b) g d).von = _
    unfold P3.out
    simp only [hth]
    by_cases hs : p.sub = true
    · simp only [if_pos hs]
      split
      · rw [(weak_out p (p.body b) g d).2.2.2.2, hth]
      · rfl
    · simp only [if_neg hs]
      split
      · simp
      · simp [P3.strong]) s
  refine ⟨N, fun n hn' => ?_⟩
  have hst := hN n hn'
  generalize (St.doTr c false v)^[n] s = st at hst
  have hB : effVbs c v st.reversed ≤ 0 := by
    unfold effVbs; split
    · exact h2
    · exact h1
  rw [settled_flow c v st hst hp, max_eq_right hB, mul_zero, add_zero, (settled_out c v st hst).2.1]
  obtain ⟨hd0, hd, hg, hb, _⟩ := hst
  rw [hc, hd, hg, hb, min_eq_left hB]
  simp only
  rw [(level3_current p hv _ _ _ (h _ hB)).2]
  unfold P3.flow
  cases hr : st.reversed
  · rw [hr] at hd0
    simp only [effVds, effVgs, effVbs, Bool.false_eq_true, if_false] at hd0 ⊢
    rw [if_pos hd0]; ring
  · rw [hr] at hd0
    simp only [effVds, effVgs, effVbs, if_true] at hd0 ⊢
    by_cases h' : 0 ≤ c.pol * (v.d - v.s)
    · have e0 : c.pol * (v.s - v.d) = 0 := by nlinarith
      have e1 : c.pol * (v.d - v.s) = 0 := by linarith
      rw [if_pos h', e0, e1, I3_zero p _ _ (h _ h2) (hn _ h2), I3_zero p _ _ (h _ h1) (hn _ h1)]; ring
    · rw [if_neg h']; ring

/-! ## Cases -/

/-- a device for the examples: threshold 4 V and half the parabola at no bulk voltage -/
def demo (theta eta alpha : ℝ) (sub : Bool) (vmax : Option ℝ) : P3 where
  gamma := 4
  theta := theta
  eta := eta
  kappa := 1
  delta3 := 0
  alpha := alpha
  xj := 1
  ld := 0
  cox := 1
  cfsox := 0
  short := false
  sub := sub
  vmax := vmax
  leff := 1
  weff := 1
  tphi := 1
  vbi := 0
  vt := 1
  uo := 1
  beta := 4

theorem demo_ok (theta eta alpha : ℝ) (sub : Bool) (vmax : Option ℝ) (vbs : ℝ) (h : vbs ≤ 0) : (demo theta eta alpha sub vmax).Ok vbs where
  phi := by norm_num [demo]
  len := by norm_num [demo]
  doped := by simp [demo, P3.Doped]
  back := h
  part := by norm_num [demo, P3.part]
  F := by
    have : 0 ≤ (demo theta eta alpha sub vmax).F vbs := by
      simp only [demo, P3.F, P3.part, Bool.false_eq_true, if_false]
      positivity
    linarith

theorem demo_F (theta eta alpha : ℝ) (sub : Bool) (vmax : Option ℝ) : (demo theta eta alpha sub vmax).F 0 = 1 := by
  norm_num [demo, P3.F, P3.part]

theorem demo_vth (theta eta alpha : ℝ) (sub : Bool) (vmax : Option ℝ) (vds : ℝ) :
    (demo theta eta alpha sub vmax).vth vds 0 = 4 - eta * 8.15e-22 * vds := by
  norm_num [demo, P3.vth, P3.Q, P3.part]
  ring

theorem demo_N (theta eta alpha : ℝ) (sub : Bool) (vmax : Option ℝ) : (demo theta eta alpha sub vmax).N 0 = 3 := by
  norm_num [demo, P3.N, P3.Q, P3.part]

/-- current at the top of the parabola, with mobility a third -/
example : ((demo 1 0 0 false none).out ((demo 1 0 0 false none).body 0) 6 1).ids = 4 / 3 := by
  rw [(level3_current (demo 1 0 0 false none) rfl 6 1 0 (demo_ok _ _ _ _ _ _ le_rfl)).2]
  simp only [P3.I, P3.chan, demo_vth, demo_F]
  norm_num [par, pos, squeeze, demo]

theorem demo_fine (theta alpha : ℝ) (ht : 0 ≤ theta) : (demo theta 0 alpha false none).Fine 6 (1 / 2) 0 := by
  have hv := demo_vth theta 0 alpha false none (1 / 2)
  have hf := demo_F theta 0 alpha false none
  refine Or.inr ⟨?_, Or.inr ⟨Or.inl ⟨rfl, ?_⟩, Or.inr (Or.inl ?_)⟩⟩
  · have e : (demo theta 0 alpha false none).over 6 (1 / 2) 0 = 2 := by
      unfold P3.over
      rw [hv]
      norm_num [demo]
    rw [e]
    show 0 < 1 + theta * 2
    positivity
  · rw [hv]; norm_num
  · rw [hv, hf]; norm_num

/-- below saturation -/
example : HasDerivAt (fun x => (demo 1 0 1 false none).I x (1 / 2) 0)
    ((demo 1 0 1 false none).out ((demo 1 0 1 false none).body 0) 6 (1 / 2)).gm 6 :=
  (level3_slopes (demo 1 0 1 false none) rfl 6 (1 / 2) 0 (demo_ok _ _ _ _ _ _ le_rfl) (demo_fine 1 1 (by norm_num))).1

example : HasDerivAt (fun x => (demo 0 0 1 false none).I 6 (1 / 2) x)
    ((demo 0 0 1 false none).out ((demo 0 0 1 false none).body 0) 6 (1 / 2)).gmb 0 :=
  (level3_slopes_plain (demo 0 0 1 false none) rfl rfl 6 (1 / 2) 0 (demo_ok _ _ _ _ _ _ le_rfl) (demo_fine 0 1 le_rfl)).2.2

theorem demo_Q (theta eta alpha : ℝ) (sub : Bool) (vmax : Option ℝ) : deriv (demo theta eta alpha sub vmax).Q 0 = -2 := by
  have e : (demo theta eta alpha sub vmax).Q = fun x => 4 * Real.sqrt (1 - x) := by
    funext x; simp [demo, P3.Q, P3.part]
  have hd : HasDerivAt (fun x : ℝ => 4 * Real.sqrt (1 - x)) (4 * (-(1 / 2) / Real.sqrt (1 - 0))) 0 :=
    (root3_deriv (demo theta eta alpha sub vmax) (by norm_num [demo]) 0 le_rfl).const_mul 4
  rw [e, hd.deriv]; norm_num

example : deriv (fun x => (demo 1 0 1 false none).I 6 (1 / 2) x) 0 ≠
    ((demo 1 0 1 false none).out ((demo 1 0 1 false none).body 0) 6 (1 / 2)).gmb := by
  refine level3_theta_wrong (demo 1 0 1 false none) rfl (by norm_num [demo]) 6 (1 / 2) 0 (demo_ok _ _ _ _ _ _ le_rfl)
    (demo_fine 1 1 (by norm_num)) (by rw [demo_Q]; norm_num) ?_
  simp only [P3.I, P3.chan, demo_vth, demo_F]
  norm_num [par, pos, squeeze, demo]

/-- with `eta` 1: 3 V at the drain, 2 V above threshold -/
example : ∃ K > 0, HasDerivAt (fun x => (demo 1 1 1 false none).I x 3 0)
    (((demo 1 1 1 false none).out ((demo 1 1 1 false none).body 0) 6 3).gm -
      (demo 1 1 1 false none).eta * 8.15e-22 / ((demo 1 1 1 false none).cox * (demo 1 1 1 false none).leff ^ 3) * K /
        (1 + (demo 1 1 1 false none).F 0)) 6 := by
  obtain ⟨K, h1, h2, _⟩ := level3_eta_wrong (demo 1 1 1 false none) rfl rfl 6 3 0 (demo_ok _ _ _ _ _ _ le_rfl) (by norm_num [demo])
    (by norm_num [demo]) (by norm_num [demo]) (by norm_num [demo]) (by rw [demo_vth]; norm_num) (by rw [demo_vth, demo_F]; norm_num)
  exact ⟨K, h1, h2⟩

/-- weak inversion: 2 V below the border, 5 V at the drain -/
example : ((demo 1 0 1 true none).out ((demo 1 0 1 true none).body 0) 5 5).gm <
    ((demo 1 0 1 true none).out ((demo 1 0 1 true none).body 0) 5 5).ids / ((demo 1 0 1 true none).vt * (demo 1 0 1 true none).N 0) :=
  (level3_sub_wrong (demo 1 0 1 true none) rfl rfl 5 5 0 (demo_ok _ _ _ _ _ _ le_rfl) (by norm_num [demo]) (by norm_num [demo])
    (by norm_num [demo]) (by norm_num [demo]) rfl (by rw [demo_N]; norm_num [demo]) (by rw [demo_vth, demo_N]; norm_num [demo])
    (by rw [demo_F, demo_N]; norm_num [demo])).2

/-- transconductance falls below minus a million -/
example : ∃ e > 0, ∀ vds, 1 < vds → vds < 1 + e → deriv (fun x => (demo 1 0 1 false none).I x vds 0) 6 < -1000000 := by
  obtain ⟨e, he, h⟩ := level3_onset (demo 1 0 1 false none) rfl rfl rfl 6 0 (demo_ok _ _ _ _ _ _ le_rfl) (by norm_num [demo])
    (by norm_num [demo]) (by norm_num [demo]) (by norm_num [demo]) (by rw [demo_vth]; norm_num) 1000000
  have e1 : (6 - (demo 1 0 1 false none).vth 0 0) / (1 + (demo 1 0 1 false none).F 0) = 1 := by rw [demo_vth, demo_F]; norm_num
  rw [e1] at h
  exact ⟨e, he, fun vds h1 h2 => (h vds h1 h2).2⟩

theorem demo_vsat (sub : Bool) : (demo 0 0 0 sub (some 1)).vsat 1 2 1 = 2 - Real.sqrt 2 := by
  norm_num [demo, P3.vsat, P3.crit]

theorem sqrt_two_bounds : (1 : ℝ) < Real.sqrt 2 ∧ Real.sqrt 2 < 3 / 2 := by
  constructor
  · rw [Real.lt_sqrt (by norm_num)]; norm_num
  · rw [Real.sqrt_lt' (by norm_num)]; norm_num

example : ((demo 0 0 0 false (some 1)).out ((demo 0 0 0 false (some 1)).body 0) 6 (1 / 2)).ids = 2 := by
  have e : (demo 0 0 0 false (some 1)).vth (1 / 2) 0 = 4 := by rw [demo_vth]; norm_num
  rw [level3_vmax_current (demo 0 0 0 false (some 1)) 1 rfl rfl 6 (1 / 2) 0 (demo_ok _ _ _ _ _ _ le_rfl) (by rw [e]; norm_num) (Or.inl rfl),
    e, demo_F]
  unfold P3.chanV
  rw [show (6 : ℝ) - 4 = 2 by norm_num, demo_vsat, min_eq_left (by have := sqrt_two_bounds.2; linarith)]
  norm_num [demo, P3.crit]

example : HasDerivAt (fun x => (demo 0 0 0 false (some 1)).chanV 1 (6 - (demo 0 0 0 false (some 1)).vth x 0) ((demo 0 0 0 false (some 1)).F 0) x)
    ((demo 0 0 0 false (some 1)).out ((demo 0 0 0 false (some 1)).body 0) 6 (1 / 2)).gds (1 / 2) := by
  have e : (demo 0 0 0 false (some 1)).vth (1 / 2) 0 = 4 := by rw [demo_vth]; norm_num
  exact (level3_vmax_slopes (demo 0 0 0 false (some 1)) 1 rfl one_pos (by norm_num [demo]) (by norm_num [demo]) 6 (1 / 2) 0 rfl
    (demo_ok _ _ _ _ _ _ le_rfl) (by rw [e]; norm_num) (by norm_num) (by
      rw [e, demo_F, show (6 : ℝ) - 4 = 2 by norm_num, demo_vsat]; have := sqrt_two_bounds.2; linarith)).2.1

example : deriv (fun x => ((demo 0 0 0 false (some 1)).out ((demo 0 0 0 false (some 1)).body 0) 6 x).ids) 2 = 0 ∧
    0 < ((demo 0 0 0 false (some 1)).out ((demo 0 0 0 false (some 1)).body 0) 6 2).gds := by
  have e : (demo 0 0 0 false (some 1)).vth 2 0 = 4 := by rw [demo_vth]; norm_num
  exact level3_vmax_wrong (demo 0 0 0 false (some 1)) 1 rfl one_pos (by norm_num [demo]) (by norm_num [demo]) (by norm_num [demo]) rfl rfl 6 2 0 rfl
    (demo_ok _ _ _ _ _ _ le_rfl) (by rw [e]; norm_num) (by
      rw [e, demo_F, show (6 : ℝ) - 4 = 2 by norm_num, demo_vsat]; have := sqrt_two_bounds.1; linarith)

example : ∃ s, HasDerivAt (fun x => (demo 0 0 0 false (some 1)).vsat 1 (x - (demo 0 0 0 false (some 1)).vthAt ⟨1, 1, 0, 0, 0, 0, 0, false⟩ 1) 0) s 6 ∧
    s < ((demo 0 0 0 false (some 1)).satv ⟨1, 1, 0, 0, 0, 0, 0, false⟩ ((demo 0 0 0 false (some 1)).drive ⟨1, 1, 0, 0, 0, 0, 0, false⟩ 6 1)).g :=
  level3_vdsat_wrong (demo 0 0 0 false (some 1)) 1 rfl one_pos (by norm_num [demo]) rfl (by norm_num [demo]) _ (by norm_num) 6 1
    (by norm_num [demo, P3.vthAt, P3.sigma])

/-- junction depth without doping, 2 V at the gate and 1 V at the drain -/
example : ({ demo 0 0 0 false none with short := true, gamma := 0 } : P3).eval 2 1 0 = none :=
  level3_nan _ rfl rfl 2 1 0 (by
    norm_num [demo, P3.flows, P3.vthAt, P3.sigma, P3.body, P3.on, P3.satv, P3.drive])

example : 0 ≤ (demo 1 1 1 true none).I 5 3 0 :=
  level3_passive _ (by norm_num [demo]) (by norm_num [demo]) 5 3 0 (demo_ok _ _ _ _ _ _ le_rfl) (fun _ => by rw [demo_N]; norm_num [demo]) (by norm_num)

/-- drain and source exchanged -/
example (s : St) : ∃ M, ∀ m, M ≤ m →
    ((St.doTr ⟨fun g d b => (demo 1 0 0 false none).out ((demo 1 0 0 false none).body b) g d, 1, false, false, true⟩ false ⟨0, 6, 5, 0⟩)^[m] s).iDS
      ⟨0, 6, 5, 0⟩ = -(4 / 3) := by
  obtain ⟨N, hN⟩ := level3_device (demo 1 0 0 false none) rfl rfl (fun vbs h => demo_ok _ _ _ _ _ vbs h) (fun _ _ hs => by simp [demo] at hs)
    ⟨_, 1, false, false, true⟩ rfl (Or.inl rfl) ⟨0, 6, 5, 0⟩ (by norm_num) (by norm_num) s
  refine ⟨N, fun n hn => (hN n hn).trans ?_⟩
  unfold P3.flow
  rw [if_neg (by norm_num)]
  simp only [show (1 : ℝ) * (0 - 0) = 0 by norm_num, show (1 : ℝ) * (5 - 0) = 5 by norm_num, show (1 : ℝ) * (6 - 0) = 6 by norm_num]
  simp only [P3.I, P3.chan, demo_vth, demo_F]
  norm_num [par, pos, squeeze, demo]

end Gnucap.Mos
