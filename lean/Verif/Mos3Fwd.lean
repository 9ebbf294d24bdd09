import Verif.Mos3Props

/-!
# Mosfet, level 3, with the bulk forward (C90); threshold from the process (C89)
-/
set_option linter.unusedSimpArgs false
namespace Gnucap.Mos

/-! ## Bulk forward -/

/-- the root of the surface potential with the bulk forward by `v`: it falls towards zero and never gets there -/
noncomputable def P3.fwd (p : P3) (v : ℝ) : ℝ := Real.sqrt p.tphi / (1 + v / (2 * p.tphi))

/-- the bulk voltage at which the square root law would give that -/
noncomputable def P3.held (p : P3) (v : ℝ) : ℝ := p.tphi - p.fwd v ^ 2

theorem fwd_pos (p : P3) (ht : 0 < p.tphi) {v : ℝ} (hv : 0 ≤ v) : 0 < p.fwd v := by
  unfold P3.fwd
  have := Real.sqrt_pos.2 ht
  positivity

theorem held_root (p : P3) (ht : 0 < p.tphi) {v : ℝ} (hv : 0 ≤ v) : Real.sqrt (p.tphi - p.held v) = p.fwd v := by
  unfold P3.held
  rw [sub_sub_cancel]
  exact Real.sqrt_sq (fwd_pos p ht hv).le

/-- it lies between zero and the surface potential, and below the voltage applied -/
theorem held_bounds (p : P3) (ht : 0 < p.tphi) {v : ℝ} (hv : 0 < v) : 0 < p.held v ∧ p.held v < p.tphi ∧ p.held v < v := by
  have h1 := fwd_pos p ht hv.le
  have hs := Real.sq_sqrt ht.le
  have e : p.fwd v ^ 2 = p.tphi / (1 + v / (2 * p.tphi)) ^ 2 := by unfold P3.fwd; rw [div_pow, hs]
  have hx : 0 < v / (2 * p.tphi) := by positivity
  set x := v / (2 * p.tphi) with hxd
  have hv' : v = 2 * p.tphi * x := by rw [hxd]; field_simp
  have hone : 1 < (1 + x) ^ 2 := by nlinarith
  refine ⟨?_, ?_, ?_⟩
  · unfold P3.held; rw [e, sub_pos, div_lt_iff₀ (by positivity)]; nlinarith
  · unfold P3.held; have : 0 < p.fwd v ^ 2 := by positivity
    linarith
  · unfold P3.held; rw [e]
    have : p.tphi * (1 - 2 * x) < p.tphi / (1 + x) ^ 2 := by
      rw [lt_div_iff₀ (by positivity)]
      have : (1 - 2 * x) * (1 + x) ^ 2 < 1 := by nlinarith [sq_nonneg x, mul_pos hx hx, mul_pos hx (mul_pos hx hx)]
      nlinarith
    rw [hv']; linarith

theorem fwd_deriv (p : P3) (ht : 0 < p.tphi) {v : ℝ} (hv : 0 < v) :
    HasDerivAt p.fwd (-(p.fwd v * p.fwd v) / (2 * p.tphi * Real.sqrt p.tphi)) v := by
  have hs := Real.sqrt_pos.2 ht
  have hd : HasDerivAt (fun x => 1 + x / (2 * p.tphi)) (1 / (2 * p.tphi)) v := ((hasDerivAt_id' v).div_const _).const_add 1
  have h := (hasDerivAt_const v (Real.sqrt p.tphi)).div hd (by positivity)
  refine (show HasDerivAt p.fwd _ v from h).congr_deriv ?_
  unfold P3.fwd
  field_simp
  ring

theorem sarg_fwd (p : P3) (_ht : 0 < p.tphi) {v : ℝ} (hv : 0 < v) :
    p.sarg v = (p.fwd v, p.fwd v * p.fwd v, -(p.fwd v * p.fwd v) / (2 * p.tphi * Real.sqrt p.tphi)) := by
  unfold P3.sarg P3.fwd
  rw [if_neg (by linarith)]
  simp only [add_comm (v / (2 * p.tphi)) 1]

/-- the share of the bulk, of the root -/
noncomputable def P3.partR (p : P3) (r : ℝ) : ℝ := if p.short then p.share (Real.sqrt p.alpha * r / p.xj) else 1

theorem part_root (p : P3) (v : ℝ) : p.part v = p.partR (Real.sqrt (p.tphi - v)) := rfl

theorem fshort_root (p : P3) (hdop : p.Doped) (r : ℝ) (hr : 0 < r) :
    ∃ e, (∀ d, p.fshort r d = (p.partR r, e * d, false)) ∧ HasDerivAt p.partR e r := by
  by_cases hsh : p.short = true
  · obtain ⟨hx, ha⟩ := hdop hsh
    have hsa : 0 < Real.sqrt p.alpha := Real.sqrt_pos.2 ha
    have hw : 0 < Real.sqrt p.alpha * r / p.xj := by positivity
    have hW : HasDerivAt (fun x => Real.sqrt p.alpha * x / p.xj) (Real.sqrt p.alpha * 1 / p.xj) r :=
      ((hasDerivAt_id' r).const_mul _).div_const _
    have hS := (share_deriv p _ hw).comp r hW
    have hpart : p.partR = p.share ∘ fun x => Real.sqrt p.alpha * x / p.xj := by
      funext x; unfold P3.partR; rw [if_pos hsh]; rfl
    have hq : Real.sqrt p.alpha * r / p.xj / (Real.sqrt p.alpha * r / p.xj + 1) < 1 := (div_lt_one (by linarith)).2 (by linarith)
    have hq0 : 0 ≤ Real.sqrt p.alpha * r / p.xj / (Real.sqrt p.alpha * r / p.xj + 1) := by positivity
    have hpos : 0 < Real.sqrt (1 - (Real.sqrt p.alpha * r / p.xj / (Real.sqrt p.alpha * r / p.xj + 1)) ^ 2) :=
      Real.sqrt_pos.2 (by nlinarith)
    rw [← hpart] at hS
    refine ⟨_, fun d => ?_, hS⟩
    unfold P3.fshort P3.partR P3.share
    simp only [hsh, if_true, ← pow_two]
    rw [if_neg (by positivity)]
    generalize Real.sqrt (1 - (Real.sqrt p.alpha * r / p.xj / (Real.sqrt p.alpha * r / p.xj + 1)) ^ 2) = argb at *
    generalize Real.sqrt p.alpha = a at *
    have hx0 : p.xj ≠ 0 := hx.ne'
    have h1 : a * r / p.xj + 1 ≠ 0 := by positivity
    have h1' : a * r + p.xj ≠ 0 := by positivity
    refine Prod.ext_iff.2 ⟨?_, Prod.ext_iff.2 ⟨?_, rfl⟩⟩
    · simp only
      ring
    · simp only
      field_simp
      ring
  · refine ⟨0, fun d => ?_, ?_⟩
    · unfold P3.fshort P3.partR; rw [if_neg hsh, if_neg hsh, zero_mul]
    · have : p.partR = fun _ => 1 := by funext x; unfold P3.partR; rw [if_neg hsh]
      rw [this]; exact hasDerivAt_const _ _

theorem body_fwd (p : P3) (ht : 0 < p.tphi) (hdop : p.Doped) {v : ℝ} (hv : 0 < v) :
    (p.body v).nan = false ∧ (p.body v).vphis = p.tphi - p.held v ∧ (p.body v).fbody = p.F (p.held v) ∧ (p.body v).qb = p.Q (p.held v) := by
  obtain ⟨e, h1, _⟩ := fshort_root p hdop _ (fwd_pos p ht hv.le)
  unfold P3.body P3.F P3.Q
  simp only [sarg_fwd p ht hv, h1, part_root, held_root p ht hv.le]
  unfold P3.held
  refine ⟨trivial, ?_, ?_, ?_⟩ <;> ring

/-- what is asked of a device with the bulk forward -/
structure P3.OkFwd (p : P3) (v : ℝ) : Prop where
  phi : 0 < p.tphi
  len : 0 < p.leff
  doped : p.Doped
  fwd : 0 < v
  F : 0 < 1 + p.F (p.held v)

/-- **C90, bulk forward.**  The current is that of the equations with the bulk voltage held below the surface potential. -/
theorem level3_forward (p : P3) (hv : p.vmax = none) (vgs vds vbs : ℝ) (h : p.OkFwd vbs) :
    p.eval vgs vds vbs = some (p.out (p.body vbs) vgs vds) ∧ (p.out (p.body vbs) vgs vds).ids = p.I vgs vds (p.held vbs) := by
  obtain ⟨h1, h2, h5, h6⟩ := body_fwd p h.phi h.doped h.fwd
  have hF : 0 < 1 + (p.body vbs).fbody := by rw [h5]; exact h.F
  have hth : p.vthAt (p.body vbs) vds = p.vth vds (p.held vbs) := by
    unfold P3.vthAt P3.vth P3.sigma
    rw [h6]
    norm_num
    left
    ring
  have hN : p.xn (p.body vbs) = p.N (p.held vbs) := by unfold P3.xn P3.N; rw [h2, h6]
  refine ⟨?_, ?_⟩
  · unfold P3.eval; rw [h1]; simp
  · unfold P3.out P3.I
    simp only [hth, hN]
    by_cases hs : p.sub = true
    · simp only [if_pos hs]
      by_cases hw : vgs < p.vth vds (p.held vbs) + p.vt * p.N (p.held vbs)
      · have hw' : vgs - p.vth vds (p.held vbs) < p.vt * p.N (p.held vbs) := by linarith
        simp only [if_pos hw, if_pos hw']
        rw [(weak_out p (p.body vbs) vgs vds).1, on_ids p _ hv hF h.len]
        simp only [hth, hN, h5, add_sub_cancel_left, sub_add_eq_sub_sub]
      · have hw' : ¬ vgs - p.vth vds (p.held vbs) < p.vt * p.N (p.held vbs) := by linarith
        simp only [if_neg hw, if_neg hw']
        unfold P3.strong
        simp only [on_ids p _ hv hF h.len, hth, h5]
    · simp only [if_neg hs]
      by_cases hw : vgs ≤ p.vth vds (p.held vbs)
      · simp only [if_pos hw, if_pos (sub_nonpos.2 hw)]
      · have hw' : ¬ vgs - p.vth vds (p.held vbs) ≤ 0 := by rwa [sub_nonpos]
        simp only [if_neg hw, if_neg hw']
        unfold P3.strong
        simp only [on_ids p _ hv hF h.len, hth, h5]

/-- **The slope of the threshold with the bulk forward** (d_mos3.model:201): right, except that the part of a narrow channel keeps the
slope it has at zero. -/
theorem level3_forward_slopes (p : P3) (ht : 0 < p.tphi) (hdop : p.Doped) {v : ℝ} (hv : 0 < v) (hp : p.partR (p.fwd v) ≠ 0) :
    HasDerivAt (fun x => p.F (p.held x)) (p.body v).dfbody v ∧
    HasDerivAt (fun x => p.Q (p.held x)) ((p.body v).dqb + p.delta3 / p.weff * (1 - 1 / (1 + v / (2 * p.tphi)) ^ 3)) v := by
  obtain ⟨e, h1, h2⟩ := fshort_root p hdop _ (fwd_pos p ht hv.le)
  have hR := fwd_deriv p ht hv
  have hS := h2.comp v hR
  have hr := fwd_pos p ht hv.le
  have hnear : ∀ᶠ x in nhds v, 0 < x := lt_mem_nhds hv
  have hs := Real.sqrt_pos.2 ht
  have hsq := Real.sq_sqrt ht.le
  constructor
  · have h := ((hS.const_mul p.gamma).div (hR.const_mul 4) (by positivity)).add_const (p.delta3 / p.weff)
    have he : (fun x => p.F (p.held x)) =ᶠ[nhds v] fun x => (p.gamma * (p.partR ∘ p.fwd) x / (4 * p.fwd x)) + p.delta3 / p.weff := by
      filter_upwards [hnear] with x hx
      simp only [P3.F, part_root, held_root p ht hx.le, Function.comp]
    refine (HasDerivAt.congr_of_eventuallyEq h he).congr_deriv ?_
    unfold P3.body
    simp only [sarg_fwd p ht hv, h1, Function.comp]
    generalize p.partR (p.fwd v) = q at *
    generalize -(p.fwd v * p.fwd v) / (2 * p.tphi * Real.sqrt p.tphi) = d
    generalize p.fwd v = r at *
    field_simp
    ring
  · have h := ((hS.const_mul p.gamma).mul hR).add ((hR.pow 2).const_mul (p.delta3 / p.weff))
    have he : (fun x => p.Q (p.held x)) =ᶠ[nhds v] fun x => p.gamma * (p.partR ∘ p.fwd) x * p.fwd x + p.delta3 / p.weff * p.fwd x ^ 2 := by
      filter_upwards [hnear] with x hx
      simp only [P3.Q, part_root, held_root p ht hx.le, Function.comp]
      unfold P3.held; ring
    refine (HasDerivAt.congr_of_eventuallyEq h he).congr_deriv ?_
    unfold P3.body
    simp only [sarg_fwd p ht hv, h1, Function.comp, Pi.pow_apply]
    have key : 2 * p.fwd v * (-(p.fwd v * p.fwd v) / (2 * p.tphi * Real.sqrt p.tphi)) = -(1 / (1 + v / (2 * p.tphi)) ^ 3) := by
      unfold P3.fwd
      generalize hq : Real.sqrt p.tphi = q at *
      have hd : 0 < 1 + v / (2 * p.tphi) := by positivity
      generalize 1 + v / (2 * p.tphi) = d at *
      rw [← hsq]
      field_simp
    linear_combination (p.delta3 / p.weff) * key

/-- **So for a narrow channel the slope is wrong wherever the bulk is forward.** -/
theorem level3_forward_wrong (p : P3) (ht : 0 < p.tphi) (hdop : p.Doped) {v : ℝ} (hv : 0 < v) (hp : p.partR (p.fwd v) ≠ 0)
    (hd : 0 < p.delta3 / p.weff) : ¬ HasDerivAt (fun x => p.Q (p.held x)) (p.body v).dqb v := by
  intro h
  have h2 := (level3_forward_slopes p ht hdop hv hp).2.unique h
  have hx : 0 < v / (2 * p.tphi) := by positivity
  have h3 : 1 / (1 + v / (2 * p.tphi)) ^ 3 < 1 := by
    rw [div_lt_one (by positivity)]
    exact one_lt_pow₀ (by linarith) (by norm_num)
  have : 0 < p.delta3 / p.weff * (1 - 1 / (1 + v / (2 * p.tphi)) ^ 3) := mul_pos hd (by linarith)
  linarith

/-- a device with the bulk forward by 2 V: the root is half, as if it were at 3/4 V -/
theorem demo_held (theta eta alpha : ℝ) (sub : Bool) (vmax : Option ℝ) : (demo theta eta alpha sub vmax).held 2 = 3 / 4 := by
  norm_num [demo, P3.held, P3.fwd]

theorem demo_fwd (theta eta alpha : ℝ) (sub : Bool) (vmax : Option ℝ) (v : ℝ) (h : 0 < v) : (demo theta eta alpha sub vmax).OkFwd v where
  phi := by norm_num [demo]
  len := by norm_num [demo]
  doped := by simp [demo, P3.Doped]
  fwd := h
  F := by
    have : 0 ≤ (demo theta eta alpha sub vmax).F ((demo theta eta alpha sub vmax).held v) := by
      simp only [demo, P3.F, P3.part, Bool.false_eq_true, if_false]
      positivity
    linarith

/-- its threshold is 2 V, half of that without -/
example : ((demo 0 0 0 false none).out ((demo 0 0 0 false none).body 2) 5 1).ids = 6 := by
  rw [(level3_forward (demo 0 0 0 false none) rfl 5 1 2 (demo_fwd _ _ _ _ _ _ (by norm_num))).2, demo_held]
  have hr : Real.sqrt 4 = 2 := by rw [show (4 : ℝ) = 2 ^ 2 by norm_num]; exact Real.sqrt_sq (by norm_num)
  norm_num [P3.I, P3.chan, P3.vth, P3.F, P3.Q, P3.part, demo, hr, par, pos, squeeze]

/-- a narrow device -/
example : ¬ HasDerivAt (fun x => { demo 0 0 0 false none with delta3 := 1 }.Q ({ demo 0 0 0 false none with delta3 := 1 }.held x))
    ({ demo 0 0 0 false none with delta3 := 1 }.body 2).dqb 2 :=
  level3_forward_wrong _ (by norm_num [demo]) (by simp [demo, P3.Doped]) (by norm_num) (by norm_num [demo, P3.partR]) (by norm_num [demo])

/-! ## Threshold from the process -/

/-- The threshold of Spice: `type` 1 n channel, -1 p channel; work functions in volts, that of aluminium 3.2, the affinity of silicon 3.25.
`tpg`: 0 aluminium, 1 silicon doped opposite to the substrate, -1 doped like it. -/
noncomputable def spiceVto (type tpg egap phi gamma q nss cox : ℝ) : ℝ :=
  let fermiSub := type * phi / 2
  let substrate := 3.25 + egap / 2 + fermiSub
  let gate := if tpg = 0 then 3.2 else 3.25 + egap / 2 - type * tpg * egap / 2
  gate - substrate - q * nss / cox + type * (gamma * Real.sqrt phi + phi)

/-- **C89, threshold from the process.**  It is that of Spice, of either channel, turned to the n channel. -/
theorem vto_process (pol tpg egap phi gamma q nss cox : ℝ) (hp : pol = 1 ∨ pol = -1) :
    vtoProcess pol tpg egap phi gamma q nss cox = pol * spiceVto pol tpg egap phi gamma q nss cox := by
  unfold vtoProcess spiceVto
  by_cases h : tpg = 0
  · rcases hp with hp | hp <;> subst hp <;> simp only [h, if_true] <;> norm_num <;> ring
  · rcases hp with hp | hp <;> subst hp <;> simp only [if_neg h] <;> ring

/-- a p channel device with an aluminium gate -/
example : vtoProcess (-1) 0 1 1 1 0 0 1 = 2.05 := by
  rw [vto_process _ _ _ _ _ _ _ _ (Or.inr rfl)]; norm_num [spiceVto]

end Gnucap.Mos
