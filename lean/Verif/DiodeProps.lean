import Verif.DiodeModel
import Mathlib.Analysis.SpecialFunctions.ExpDeriv
import Mathlib.Analysis.SpecialFunctions.Pow.Deriv
import Mathlib.Analysis.Calculus.MeanValue
import Mathlib.Analysis.Calculus.Deriv.MeanValue
import Mathlib.Topology.Algebra.Order.LiminfLimsup
import Mathlib.MeasureTheory.Integral.IntervalIntegral.FundThmCalculus
import Mathlib.Tactic.Linarith
import Mathlib.Tactic.FieldSimp
import Mathlib.Tactic.LinearCombination

/-!
# Diode (C69)
-/
set_option linter.unusedSimpArgs false
namespace Gnucap.Diode

/-- Specification: the current of an ideal junction -/
noncomputable def J (isat vt v : ℝ) : ℝ := isat * (Real.exp (v / vt) - 1)

theorem J_deriv (isat vt v : ℝ) : HasDerivAt (J isat vt) (isat * Real.exp (v / vt) / vt) v := by
  unfold J
  have h1 : HasDerivAt (fun x : ℝ => x / vt) (1 / vt) v := (hasDerivAt_id v).div_const vt
  have h2 : HasDerivAt (fun x : ℝ => Real.exp (x / vt)) (Real.exp (v / vt) * (1 / vt)) v := h1.exp
  exact ((h2.sub_const 1).const_mul isat).congr_deriv (by ring)

theorem J_strictMono {isat vt : ℝ} (hi : 0 < isat) (hv : 0 < vt) : StrictMono (J isat vt) := by
  intro a b h
  unfold J
  have : Real.exp (a / vt) < Real.exp (b / vt) := Real.exp_lt_exp.2 (by gcongr)
  nlinarith

/-- the tangent of the junction at `w` lies below it elsewhere -/
theorem J_above {isat vt : ℝ} (hi : 0 < isat) (hv : 0 < vt) (w v : ℝ) (hne : v ≠ w) :
    J isat vt w + isat * Real.exp (w / vt) / vt * (v - w) < J isat vt v := by
  have hu : (v - w) / vt ≠ 0 := div_ne_zero (sub_ne_zero.2 hne) hv.ne'
  have h := Real.add_one_lt_exp hu
  have e : Real.exp (v / vt) = Real.exp (w / vt) * Real.exp ((v - w) / vt) := by rw [← Real.exp_add]; congr 1; field_simp; ring
  unfold J
  rw [e]
  have hp : 0 < isat * Real.exp (w / vt) := by positivity
  have : isat * Real.exp (w / vt) / vt * (v - w) = isat * Real.exp (w / vt) * ((v - w) / vt) := by ring
  rw [this]
  nlinarith

/-- the voltage at which the junction carries `a` -/
noncomputable def volt (isat vt a : ℝ) : ℝ := vt * Real.log (a / isat + 1)

theorem J_volt {isat vt a : ℝ} (hi : 0 < isat) (hv : 0 < vt) (ha : 0 ≤ a) : J isat vt (volt isat vt a) = a := by
  have hp : 0 < a / isat + 1 := by positivity
  unfold J volt
  rw [mul_div_cancel_left₀ _ hv.ne', Real.exp_log hp]
  field_simp
  ring

theorem exp_volt {isat vt a : ℝ} (hi : 0 < isat) (hv : 0 < vt) (ha : 0 ≤ a) : isat * Real.exp (volt isat vt a / vt) = isat + a := by
  have := J_volt hi hv ha
  unfold J at this
  linarith

/-! ## the usual model -/

/-- the usual model is used, and neither bit 0100 nor bit 0400 changes slope or value on their own -/
def Par.Usual (p : Par) : Prop := p.level = 0 ∧ p.fl.b0040 = false ∧ p.fl.b0100 = false ∧ p.fl.b0400 = false

/-- what is in parallel with the junction by request -/
def Par.para (p : Par) : ℝ := p.gp + if p.fl.b0200 then p.gmin else 0

/-- what is added in reverse by the flags -/
noncomputable def Par.revPara (p : Par) : ℝ := (if p.fl.b0002 then p.gmin else 0) + if p.fl.b0004 then p.isat / p.vt else 0

theorem usual_eq (p : Par) (h : p.Usual) (init : Bool) (old : Region) (vold amps volts : ℝ) :
    (p.evalYj init old vold amps volts).f0 = (p.evUsual init amps volts).f0 + p.para * volts ∧
    (p.evalYj init old vold amps volts).f1 = (p.evUsual init amps volts).f1 + p.para := by
  obtain ⟨h1, h2, h3, h4⟩ := h
  simp only [Par.evalYj, h1, h2, Par.finish, h3, h4, Par.para]
  by_cases h5 : p.fl.b0200 = true <;> simp [h5] <;> constructor <;> ring

/-- **C69, reverse.**  At zero or negative voltage value and slope are those of the junction and the conductances asked for,
whatever was there before. -/
theorem reverse_exact (p : Par) (h : p.Usual) (h10 : p.fl.b0010 = false) (old : Region) (vold amps volts : ℝ) (hv : volts ≤ 0) :
    (p.evalYj false old vold amps volts).f0 = J p.isat p.vt volts + (p.revPara + p.para) * volts ∧
    HasDerivAt (fun v => J p.isat p.vt v + (p.revPara + p.para) * v) (p.evalYj false old vold amps volts).f1 volts := by
  obtain ⟨e0, e1⟩ := usual_eq p h false old vold amps volts
  have d : HasDerivAt (fun v => J p.isat p.vt v + (p.revPara + p.para) * v)
      (p.isat * Real.exp (volts / p.vt) / p.vt + (p.revPara + p.para)) volts :=
    ((J_deriv p.isat p.vt volts).add ((hasDerivAt_id volts).const_mul (p.revPara + p.para))).congr_deriv (by ring)
  have f0 : (p.evUsual false amps volts).f0 = J p.isat p.vt volts + p.revPara * volts := by
    simp only [Par.evUsual, Bool.false_eq_true, if_false, if_pos hv, h10, Par.revPara, J]
    by_cases h2 : p.fl.b0002 = true <;> by_cases h4 : p.fl.b0004 = true <;> simp [h2, h4] <;> ring
  have f1 : (p.evUsual false amps volts).f1 = p.isat * Real.exp (volts / p.vt) / p.vt + p.revPara := by
    simp only [Par.evUsual, Bool.false_eq_true, if_false, if_pos hv, h10, Par.revPara]
    by_cases h2 : p.fl.b0002 = true <;> by_cases h4 : p.fl.b0004 = true <;> simp [h2, h4] <;> ring
  refine ⟨by rw [e0, f0]; ring, d.congr_deriv (by rw [e1, f1]; ring)⟩

theorem forward_val (p : Par) (amps volts : ℝ) (hv : 0 < volts) (ha : 0 ≤ amps) :
    p.evUsual false amps volts = ⟨amps - Real.log (amps / p.isat + 1) * (p.isat + amps) + volts * ((p.isat + amps) / p.vt),
      (p.isat + amps) / p.vt, .forward⟩ := by
  simp only [Par.evUsual, Bool.false_eq_true, if_false, if_neg (not_le.2 hv), if_pos (show 0 ≤ volts ∧ 0 ≤ amps from ⟨hv.le, ha⟩)]

/-- **C69, forward.**  At positive voltage the line loaded is the tangent of the junction at the voltage that belongs to the
current handed in, plus what is in parallel. -/
theorem forward_tangent (p : Par) (h : p.Usual) (hi : 0 < p.isat) (ht : 0 < p.vt) (old : Region) (vold amps volts : ℝ) (hv : 0 < volts)
    (ha : 0 ≤ amps) (u : ℝ) :
    (p.evalYj false old vold amps volts).f0 + (p.evalYj false old vold amps volts).f1 * (u - volts) =
      J p.isat p.vt (volt p.isat p.vt amps) +
        deriv (J p.isat p.vt) (volt p.isat p.vt amps) * (u - volt p.isat p.vt amps) + p.para * u := by
  obtain ⟨e0, e1⟩ := usual_eq p h false old vold amps volts
  rw [e0, e1, forward_val p amps volts hv ha, J_volt hi ht ha, (J_deriv _ _ _).deriv, exp_volt hi ht ha]
  simp only [volt]
  have := ht.ne'
  field_simp
  ring

/-- the value handed back for a current handed in, at a positive voltage -/
theorem forward_next (p : Par) (h : p.Usual) (hi : 0 < p.isat) (ht : 0 < p.vt) (old : Region) (vold amps volts : ℝ) (hv : 0 < volts)
    (ha : 0 ≤ amps) :
    (p.evalYj false old vold amps volts).f0 = amps + (p.isat + amps) / p.vt * (volts - volt p.isat p.vt amps) + p.para * volts := by
  have := forward_tangent p h hi ht old vold amps volts hv ha volts
  rw [sub_self, mul_zero, add_zero, J_volt hi ht ha, (J_deriv _ _ _).deriv, exp_volt hi ht ha] at this
  exact this

/-- **C69, a diode without parallel conductance.**  It hands back the current handed in exactly if that is the current of the
junction; else it hands back less than that. -/
theorem forward_fixed (p : Par) (h : p.Usual) (hg : p.para = 0) (hi : 0 < p.isat) (ht : 0 < p.vt) (old : Region) (vold amps volts : ℝ)
    (hv : 0 < volts) (ha : 0 ≤ amps) :
    ((p.evalYj false old vold amps volts).f0 = amps ↔ amps = J p.isat p.vt volts) ∧
    (p.evalYj false old vold amps volts).f0 ≤ J p.isat p.vt volts := by
  have e := forward_next p h hi ht old vold amps volts hv ha
  rw [hg, zero_mul, add_zero] at e
  have hp : 0 < (p.isat + amps) / p.vt := by positivity
  have hj := J_volt (a := amps) hi ht ha
  constructor
  · rw [e]
    constructor
    · intro hh
      have : volts - volt p.isat p.vt amps = 0 := by
        have : (p.isat + amps) / p.vt * (volts - volt p.isat p.vt amps) = 0 := by linarith
        exact (mul_eq_zero.1 this).resolve_left hp.ne'
      rw [show volts = volt p.isat p.vt amps by linarith, hj]
    · intro hh
      have : volt p.isat p.vt amps = volts := (J_strictMono hi ht).injective (by rw [hj, hh])
      rw [this]; ring
  · by_cases hw : volts = volt p.isat p.vt amps
    · rw [e, hw, hj]; simp
    · have := J_above hi ht (volt p.isat p.vt amps) volts hw
      rw [hj, exp_volt hi ht ha] at this
      rw [e]
      exact this.le

/-- **C69 fails with a parallel conductance** (`gparallel`, or gmin by bit 0200): the current handed in contains its share, but
is taken for that of the junction.  In forward bias, where iteration stops the current is less than it should be. -/
theorem parallel_wrong (p : Par) (h : p.Usual) (hg : 0 < p.para) (hi : 0 < p.isat) (ht : 0 < p.vt) (old : Region) (vold amps volts : ℝ)
    (hv : 0 < volts) (ha : 0 ≤ amps) (hfix : (p.evalYj false old vold amps volts).f0 = amps) :
    J p.isat p.vt volts < amps ∧ amps < J p.isat p.vt volts + p.para * volts := by
  have e := forward_next p h hi ht old vold amps volts hv ha
  have hp : 0 < (p.isat + amps) / p.vt := by positivity
  have hj := J_volt (a := amps) hi ht ha
  rw [hfix] at e
  have hlt : volts < volt p.isat p.vt amps := by
    by_contra hc
    have : 0 ≤ (p.isat + amps) / p.vt * (volts - volt p.isat p.vt amps) := mul_nonneg hp.le (by linarith [not_lt.1 hc])
    have : 0 < p.para * volts := by positivity
    linarith
  constructor
  · have := J_strictMono hi ht hlt
    rwa [hj] at this
  · have := J_above hi ht (volt p.isat p.vt amps) volts hlt.ne
    rw [hj, exp_volt hi ht ha] at this
    linarith

/-- ... and there is such a current. -/
theorem parallel_stops (p : Par) (h : p.Usual) (hg : 0 < p.para) (hi : 0 < p.isat) (ht : 0 < p.vt) (old : Region) (vold volts : ℝ)
    (hv : 0 < volts) : ∃ amps, 0 ≤ amps ∧ (p.evalYj false old vold amps volts).f0 = amps := by
  have hJ : 0 < J p.isat p.vt volts := by
    have := J_strictMono hi ht hv
    simpa [J] using this
  set a := J p.isat p.vt volts with ha
  set b := a + p.para * volts with hb
  have hpv : 0 < p.para * volts := by positivity
  let g : ℝ → ℝ := fun x => (p.isat + x) / p.vt * (volts - volt p.isat p.vt x) + p.para * volts
  have hc : ContinuousOn g (Set.Icc a b) := by
    have hl : ContinuousOn (fun x : ℝ => Real.log (x / p.isat + 1)) (Set.Icc a b) := by
      apply ContinuousOn.log (by fun_prop)
      intro x hx
      have : 0 < x / p.isat := div_pos (lt_of_lt_of_le hJ hx.1) hi
      linarith
    apply ContinuousOn.add _ continuousOn_const
    apply ContinuousOn.mul (by fun_prop)
    apply ContinuousOn.sub continuousOn_const
    exact continuousOn_const.mul hl
  have ga : 0 ≤ g a := by
    have : volt p.isat p.vt a = volts := (J_strictMono hi ht).injective (by rw [J_volt hi ht hJ.le])
    simp only [g, this, sub_self, mul_zero, zero_add]
    exact hpv.le
  have gb : g b ≤ 0 := by
    have hb0 : 0 ≤ b := by linarith
    have hne : volts ≠ volt p.isat p.vt b := by
      intro hh
      have := J_volt (vt := p.vt) hi ht hb0
      rw [← hh] at this
      linarith
    have := J_above hi ht (volt p.isat p.vt b) volts hne
    rw [J_volt hi ht hb0, exp_volt hi ht hb0] at this
    simp only [g]
    linarith
  obtain ⟨x, hx, hx0⟩ := intermediate_value_Icc' (by linarith : a ≤ b) hc ⟨gb, ga⟩
  have hx1 : 0 ≤ x := hJ.le.trans hx.1
  refine ⟨x, hx1, ?_⟩
  rw [forward_next p h hi ht old vold x volts hv hx1]
  simp only [g] at hx0
  linarith

/-- the usual options -/
example : (Par.mk 1 1 0 0 0 {} none 0).Usual ∧ (Par.mk 1 1 0 0 0 {} none 0).para = 0 ∧ (Par.mk 1 1 3 0 0 {} none 0).para = 3 := by
  refine ⟨⟨rfl, rfl, rfl, rfl⟩, ?_, ?_⟩ <;> simp [Par.para]

/-! ### iteration at a held voltage -/

/-- a voltage held: the current handed in is the one handed back before -/
theorem doTr_amps (p : Par) (volts : ℝ) (s : Yj) :
    (s.doTr p false volts).c1 * volts + (s.doTr p false volts).c0 = (s.doTr p false volts).y1f0 := by
  simp only [Yj.doTr]; ring

/-- `r (1 - log r)`: the relative step of the iteration -/
noncomputable def phi (r : ℝ) : ℝ := r * (1 - Real.log r)

theorem phi_le_one {r : ℝ} (hr : 0 < r) : phi r ≤ 1 := by
  have h := Real.one_sub_inv_le_log_of_pos hr
  unfold phi
  have : r * (1 - Real.log r) ≤ r * r⁻¹ := by
    apply mul_le_mul_of_nonneg_left _ hr.le
    linarith
  rwa [mul_inv_cancel₀ hr.ne'] at this

theorem le_phi {r : ℝ} (hr : 0 < r) (h1 : r ≤ 1) : r ≤ phi r := by
  have h := Real.log_nonpos hr.le h1
  unfold phi
  nlinarith

theorem phi_tendsto (a : ℕ → ℝ) (h0 : 0 < a 0) (h1 : a 0 ≤ 1) (hs : ∀ n, a (n + 1) = phi (a n)) :
    Filter.Tendsto a Filter.atTop (nhds 1) := by
  have hb : ∀ n, a 0 ≤ a n ∧ a n ≤ 1 := by
    intro n
    induction n with
    | zero => exact ⟨le_rfl, h1⟩
    | succ n ih =>
      have hp : 0 < a n := lt_of_lt_of_le h0 ih.1
      rw [hs]
      exact ⟨ih.1.trans (le_phi hp ih.2), phi_le_one hp⟩
  have hm : Monotone a := monotone_nat_of_le_succ fun n => by
    rw [hs]; exact le_phi (lt_of_lt_of_le h0 (hb n).1) (hb n).2
  have hbd : BddAbove (Set.range a) := ⟨1, by rintro _ ⟨n, rfl⟩; exact (hb n).2⟩
  have hlim := tendsto_atTop_ciSup hm hbd
  set L := ⨆ n, a n
  have hL0 : a 0 ≤ L := le_ciSup hbd 0
  have hLp : 0 < L := lt_of_lt_of_le h0 hL0
  have hcont : Filter.Tendsto (fun n => phi (a n)) Filter.atTop (nhds (phi L)) := by
    have : ContinuousAt phi L := by
      unfold phi
      exact continuousAt_id.mul (continuousAt_const.sub (Real.continuousAt_log hLp.ne'))
    exact this.tendsto.comp hlim
  have h2 : Filter.Tendsto (fun n => a (n + 1)) Filter.atTop (nhds L) := hlim.comp (Filter.tendsto_add_atTop_nat 1)
  have : L = phi L := tendsto_nhds_unique h2 (by simpa only [hs] using hcont)
  have hlog : Real.log L = 0 := by
    unfold phi at this
    have h3 : L * Real.log L = 0 := by linarith
    exact (mul_eq_zero.1 h3).resolve_left hLp.ne'
  have hL1 : L = 1 := by
    rcases Real.log_eq_zero.1 hlog with h | h | h <;> linarith
  rw [hL1] at hlim
  exact hlim

/-- the relative form of a forward evaluation -/
theorem forward_phi (p : Par) (h : p.Usual) (hg : p.para = 0) (hi : 0 < p.isat) (ht : 0 < p.vt) (old : Region) (vold amps volts : ℝ)
    (hv : 0 < volts) (ha : 0 ≤ amps) :
    ((p.evalYj false old vold amps volts).f0 + p.isat) / (p.isat * Real.exp (volts / p.vt)) =
      phi ((amps + p.isat) / (p.isat * Real.exp (volts / p.vt))) := by
  have e := forward_next p h hi ht old vold amps volts hv ha
  rw [hg, zero_mul, add_zero] at e
  rw [e]
  have hE := Real.exp_pos (volts / p.vt)
  have hl : Real.log ((amps + p.isat) / (p.isat * Real.exp (volts / p.vt))) = Real.log (amps / p.isat + 1) - volts / p.vt := by
    have : (amps + p.isat) / (p.isat * Real.exp (volts / p.vt)) = (amps / p.isat + 1) / Real.exp (volts / p.vt) := by field_simp
    rw [this, Real.log_div (by positivity) hE.ne', Real.log_exp]
  unfold phi
  rw [hl]
  unfold volt
  field_simp
  ring

/-- **C69, iteration.**  Hold any positive voltage: from any state whatever the currents converge to that of the junction. -/
theorem held_converges (p : Par) (h : p.Usual) (hg : p.para = 0) (hi : 0 < p.isat) (ht : 0 < p.vt) (volts : ℝ) (hv : 0 < volts) (s : Yj) :
    Filter.Tendsto (fun n => ((Yj.doTr p false volts)^[n] s).y1f0) Filter.atTop (nhds (J p.isat p.vt volts)) := by
  set Y := p.isat * Real.exp (volts / p.vt) with hY
  have hYp : 0 < Y := by positivity
  have hYi : p.isat ≤ Y := by
    have : 1 ≤ Real.exp (volts / p.vt) := Real.one_le_exp (by positivity)
    rw [hY]; nlinarith
  -- once the current is nonnegative and below that of the junction
  have core : ∀ s : Yj, (0 ≤ s.c1 * volts + s.c0 ∧ s.c1 * volts + s.c0 ≤ J p.isat p.vt volts) →
      Filter.Tendsto (fun n => ((Yj.doTr p false volts)^[n + 1] s).y1f0) Filter.atTop (nhds (J p.isat p.vt volts)) := by
    intro s hs
    let amp : ℕ → ℝ := fun n => ((Yj.doTr p false volts)^[n] s).c1 * volts + ((Yj.doTr p false volts)^[n] s).c0
    have hJY : J p.isat p.vt volts = Y - p.isat := by rw [hY]; unfold J; ring
    have step : ∀ n, 0 ≤ amp n → (amp (n + 1) + p.isat) / Y = phi ((amp n + p.isat) / Y) := by
      intro n hn
      have e1 : amp (n + 1) = ((Yj.doTr p false volts) ((Yj.doTr p false volts)^[n] s)).y1f0 := by
        simp only [amp, Function.iterate_succ_apply']
        exact doTr_amps p volts _
      rw [e1]
      exact forward_phi p h hg hi ht _ _ _ _ hv hn
    have pos : ∀ n, 0 ≤ amp n ∧ (amp n + p.isat) / Y ≤ 1 := by
      intro n
      induction n with
      | zero =>
        refine ⟨hs.1, ?_⟩
        rw [div_le_one hYp]
        have := hs.2
        simp only [amp, Function.iterate_zero, id]
        linarith
      | succ n ih =>
        have hr : 0 < (amp n + p.isat) / Y := div_pos (by linarith [ih.1]) hYp
        have e := step n ih.1
        refine ⟨?_, by rw [e]; exact phi_le_one hr⟩
        have := le_phi hr ih.2
        rw [← e, div_le_div_iff_of_pos_right hYp] at this
        linarith [ih.1]
    have lim := phi_tendsto (fun n => (amp n + p.isat) / Y) (div_pos (by linarith [(pos 0).1]) hYp) (pos 0).2 (fun n => step n (pos n).1)
    have lim2 : Filter.Tendsto (fun n => (amp n + p.isat) / Y * Y - p.isat) Filter.atTop (nhds (1 * Y - p.isat)) :=
      (lim.mul_const Y).sub_const p.isat
    have e3 : (fun n => (amp n + p.isat) / Y * Y - p.isat) = amp := by
      funext n; rw [div_mul_cancel₀ _ hYp.ne']; ring
    rw [e3, one_mul, ← hJY] at lim2
    have := lim2.comp (Filter.tendsto_add_atTop_nat 1)
    refine this.congr fun n => ?_
    simp only [amp, Function.comp, Function.iterate_succ_apply']
    exact doTr_amps p volts _
  have hJ0 : 0 < J p.isat p.vt volts := by
    have := J_strictMono hi ht hv
    simpa [J] using this
  -- a current handed back is at most that of the junction; an impossible one is followed by a possible one
  have next : ∀ s : Yj, (s.doTr p false volts).y1f0 ≤ J p.isat p.vt volts ∧
      (s.c1 * volts + s.c0 < 0 → 0 ≤ (s.doTr p false volts).y1f0) := by
    intro s
    by_cases hn : 0 ≤ s.c1 * volts + s.c0
    · refine ⟨?_, fun hh => absurd hn (not_le.2 hh)⟩
      exact (forward_fixed p h hg hi ht s.region s.y1f0 _ volts hv hn).2
    · have e : (s.doTr p false volts).y1f0 = (if p.fl.b0001 then volts * (p.isat / p.vt) else 0) := by
        have := (usual_eq p h false s.region s.y1f0 (s.c1 * volts + s.c0) volts).1
        simp only [Yj.doTr]
        rw [this, hg, zero_mul, add_zero]
        simp only [Par.evUsual, Bool.false_eq_true, if_false, if_neg (not_le.2 hv), if_neg (fun hh : 0 ≤ volts ∧ 0 ≤ _ => hn hh.2)]
      rw [e]
      split
      · have hlin : volts * (p.isat / p.vt) ≤ J p.isat p.vt volts := by
          have := J_above hi ht 0 volts hv.ne'
          simp only [J, zero_div, Real.exp_zero, sub_self, mul_zero, mul_one, sub_zero, zero_add] at this
          unfold J
          linarith [this, mul_comm volts (p.isat / p.vt)]
        exact ⟨hlin, fun _ => by positivity⟩
      · exact ⟨hJ0.le, fun _ => le_rfl⟩
  rw [← Filter.tendsto_add_atTop_iff_nat 3]
  set s1 := s.doTr p false volts with hs1
  by_cases h1 : 0 ≤ s1.c1 * volts + s1.c0
  · have c := core s1 ⟨h1, by rw [doTr_amps]; exact (next s).1⟩
    have := c.comp (Filter.tendsto_add_atTop_nat 1)
    refine this.congr fun n => ?_
    simp only [Function.comp, hs1]
    rw [← Function.iterate_succ_apply]
  · set s2 := s1.doTr p false volts with hs2
    have c := core s2 ⟨by rw [doTr_amps]; exact (next s1).2 (not_le.1 h1), by rw [doTr_amps]; exact (next s1).1⟩
    refine c.congr fun n => ?_
    rw [hs2, hs1, ← Function.iterate_succ_apply, ← Function.iterate_succ_apply]

/-- ... and the slopes to that of the junction. -/
theorem held_slope (p : Par) (h : p.Usual) (hg : p.para = 0) (hi : 0 < p.isat) (ht : 0 < p.vt) (volts : ℝ) (hv : 0 < volts) (s : Yj) :
    Filter.Tendsto (fun n => ((Yj.doTr p false volts)^[n] s).c1) Filter.atTop (nhds (deriv (J p.isat p.vt) volts)) := by
  have lim := held_converges p h hg hi ht volts hv s
  have hJ0 : 0 < J p.isat p.vt volts := by
    have := J_strictMono hi ht hv
    simpa [J] using this
  rw [← Filter.tendsto_add_atTop_iff_nat 2]
  have lim1 := lim.comp (Filter.tendsto_add_atTop_nat 1)
  have lim2 := (lim1.const_add p.isat).div_const p.vt
  have e : (p.isat + J p.isat p.vt volts) / p.vt = deriv (J p.isat p.vt) volts := by
    rw [(J_deriv _ _ _).deriv]; unfold J; ring
  rw [e] at lim2
  refine lim2.congr' ?_
  filter_upwards [lim1.eventually (lt_mem_nhds hJ0)] with n hn
  simp only [Function.comp] at hn ⊢
  rw [Function.iterate_succ_apply' (Yj.doTr p false volts) (n + 1)]
  generalize ht1 : (Yj.doTr p false volts)^[n + 1] s = t at hn ⊢
  have ha : t.c1 * volts + t.c0 = t.y1f0 := by
    rw [← ht1, Function.iterate_succ_apply']; exact doTr_amps p volts _
  have e1 := (usual_eq p h false t.region t.y1f0 (t.c1 * volts + t.c0) volts).2
  rw [forward_val p _ volts hv (by rw [ha]; exact hn.le), hg, add_zero, ha] at e1
  simp only [Yj.doTr]
  rw [ha, e1]

example (s : Yj) : Filter.Tendsto (fun n => ((Yj.doTr ⟨1, 1, 0, 0, 0, {}, none, 0⟩ false 2)^[n] s).y1f0) Filter.atTop (nhds (J 1 1 2)) :=
  held_converges ⟨1, 1, 0, 0, 0, {}, none, 0⟩ ⟨rfl, rfl, rfl, rfl⟩ (by simp [Par.para]) one_pos one_pos 2 two_pos s

/-! ## diodes in mosfets, and the "exact Spice model" -/

/-- Specification: the junction of levels 1 to 6: a resistor in reverse -/
noncomputable def lawLow (p : Par) (v : ℝ) : ℝ := if v ≤ 0 then (p.isat / p.vt + p.gmin) * v else J p.isat p.vt v + p.gmin * v

/-- Specification: that of levels 7 and 8: a straight line from half a volt on -/
noncomputable def lawHigh (p : Par) (v : ℝ) : ℝ :=
  if v < 1 / 2 then J p.isat p.vt v + p.gmin * v
  else J p.isat p.vt (1 / 2) + p.isat * Real.exp (1 / 2 / p.vt) / p.vt * (v - 1 / 2) + p.gmin * v

/-- two branches that meet smoothly -/
theorem hasDerivAt_meet (f g : ℝ → ℝ) (a d : ℝ) (hf : HasDerivAt f d a) (hg : HasDerivAt g d a) (he : f a = g a) (k : ℝ → ℝ)
    (hk : ∀ x, x ≤ a → k x = f x) (hk' : ∀ x, a ≤ x → k x = g x) : HasDerivAt k d a := by
  have hl : HasDerivWithinAt k d (Set.Iic a) a :=
    hf.hasDerivWithinAt.congr (fun x hx => hk x hx) (hk a le_rfl)
  have hr : HasDerivWithinAt k d (Set.Ici a) a :=
    hg.hasDerivWithinAt.congr (fun x hx => hk' x hx) (hk' a le_rfl)
  have := hl.union hr
  rwa [Set.Iic_union_Ici, hasDerivWithinAt_univ] at this

theorem lin_deriv (g v : ℝ) : HasDerivAt (fun x : ℝ => g * x) g v := by simpa using (hasDerivAt_id v).const_mul g

theorem low_exact (p : Par) (hl : 0 < p.level ∧ p.level ≤ 6) (old : Region) (v : ℝ) :
    (p.evMos old v).f0 = lawLow p v ∧ HasDerivAt (lawLow p) (p.evMos old v).f1 v := by
  have dJ : ∀ v, HasDerivAt (fun x => J p.isat p.vt x + p.gmin * x) (p.isat * Real.exp (v / p.vt) / p.vt + p.gmin) v := fun v =>
    (J_deriv p.isat p.vt v).add (lin_deriv p.gmin v)
  simp only [Par.evMos, if_pos hl.2]
  rcases lt_trichotomy v 0 with h | h | h
  · rw [if_pos h.le]
    refine ⟨by simp [lawLow, h.le], ?_⟩
    refine (lin_deriv (p.isat / p.vt + p.gmin) v).congr_of_eventuallyEq ?_
    filter_upwards [gt_mem_nhds h] with x hx
    simp [lawLow, hx.le]
  · subst h
    rw [if_pos le_rfl]
    refine ⟨by simp [lawLow], ?_⟩
    refine hasDerivAt_meet (fun x => (p.isat / p.vt + p.gmin) * x) (fun x => J p.isat p.vt x + p.gmin * x) 0 _
      (lin_deriv _ 0) ((dJ 0).congr_deriv (by simp)) (by simp [J]) _ ?_ ?_
    · intro x hx; simp [lawLow, hx]
    · intro x hx
      rcases eq_or_lt_of_le hx with rfl | hx
      · simp [lawLow, J]
      · simp [lawLow, not_le.2 hx]
  · rw [if_neg (not_le.2 h)]
    refine ⟨by simp [lawLow, not_le.2 h, J], ?_⟩
    refine (dJ v).congr_of_eventuallyEq ?_
    filter_upwards [lt_mem_nhds h] with x hx
    simp [lawLow, not_le.2 hx]

theorem high_exact (p : Par) (hl : 6 < p.level ∧ p.level ≤ 8) (old : Region) (v : ℝ) :
    (p.evMos old v).f0 = lawHigh p v ∧ HasDerivAt (lawHigh p) (p.evMos old v).f1 v := by
  have dJ : ∀ v, HasDerivAt (fun x => J p.isat p.vt x + p.gmin * x) (p.isat * Real.exp (v / p.vt) / p.vt + p.gmin) v := fun v =>
    (J_deriv p.isat p.vt v).add (lin_deriv p.gmin v)
  have dL : ∀ v, HasDerivAt (fun x => J p.isat p.vt (1 / 2) + p.isat * Real.exp (1 / 2 / p.vt) / p.vt * (x - 1 / 2) + p.gmin * x)
      (p.isat * Real.exp (1 / 2 / p.vt) / p.vt + p.gmin) v := by
    intro v
    have := (((hasDerivAt_id v).sub_const (1 / 2)).const_mul (p.isat * Real.exp (1 / 2 / p.vt) / p.vt)).const_add (J p.isat p.vt (1 / 2))
    exact (this.add (lin_deriv p.gmin v)).congr_deriv (by simp)
  simp only [Par.evMos, if_neg (not_le.2 hl.1), if_pos hl.2]
  rcases lt_trichotomy v (1 / 2) with h | h | h
  · rw [if_pos h]
    refine ⟨by simp only [lawHigh, if_pos h, J], ?_⟩
    refine (dJ v).congr_of_eventuallyEq ?_
    filter_upwards [gt_mem_nhds h] with x hx
    simp only [lawHigh, if_pos hx]
  · subst h
    rw [if_neg (lt_irrefl _)]
    refine ⟨by simp only [lawHigh, if_neg (lt_irrefl _), J], ?_⟩
    refine hasDerivAt_meet (fun x => J p.isat p.vt x + p.gmin * x)
      (fun x => J p.isat p.vt (1 / 2) + p.isat * Real.exp (1 / 2 / p.vt) / p.vt * (x - 1 / 2) + p.gmin * x) (1 / 2) _
      (dJ _) (dL _) (by ring) _ ?_ ?_
    · intro x hx
      rcases eq_or_lt_of_le hx with rfl | hx
      · simp only [lawHigh, if_neg (lt_irrefl _)]; ring
      · simp only [lawHigh, if_pos hx]
    · intro x hx; simp only [lawHigh, if_neg (not_lt.2 hx)]
  · rw [if_neg (not_lt.2 h.le)]
    refine ⟨by simp only [lawHigh, if_neg (not_lt.2 h.le), J], ?_⟩
    refine (dL v).congr_of_eventuallyEq ?_
    filter_upwards [lt_mem_nhds h] with x hx
    simp only [lawHigh, if_neg (not_lt.2 hx.le)]

/-- Specification: the "exact Spice" junction, without breakdown -/
noncomputable def lawSpice (p : Par) (v : ℝ) : ℝ :=
  (if -3 * p.vt ≤ v then J p.isat p.vt v else -p.isat * (1 + (3 * p.vt / (v * Real.exp 1)) ^ 3)) + p.gmin * v

theorem spice_exact (p : Par) (ht : 0 < p.vt) (old : Region) (v : ℝ) (hb : p.bv.isSome = true ∨ p.na ≤ v) :
    (p.evSpice old v).f0 = lawSpice p v ∧ HasDerivAt (lawSpice p) (p.evSpice old v).f1 v := by
  have dJ : ∀ v, HasDerivAt (fun x => J p.isat p.vt x + p.gmin * x) (p.isat * Real.exp (v / p.vt) / p.vt + p.gmin) v := fun v =>
    (J_deriv p.isat p.vt v).add (lin_deriv p.gmin v)
  have hE := (Real.exp_pos 1).ne'
  have dR : ∀ v, v ≠ 0 → HasDerivAt (fun x => -p.isat * (1 + (3 * p.vt / (x * Real.exp 1)) ^ 3) + p.gmin * x)
      (p.isat * 3 * (3 * p.vt / (v * Real.exp 1)) ^ 3 / v + p.gmin) v := by
    intro v hv
    have h1 : HasDerivAt (fun x : ℝ => x * Real.exp 1) (Real.exp 1) v := by simpa using (hasDerivAt_id v).mul_const (Real.exp 1)
    have h2 := (h1.inv (mul_ne_zero hv hE)).const_mul (3 * p.vt)
    have h3 := ((h2.pow 3).const_add 1).const_mul (-p.isat)
    have h4 := h3.add (lin_deriv p.gmin v)
    refine h4.congr_deriv ?_ |>.congr_of_eventuallyEq ?_
    · simp only [Pi.inv_apply, show (3 : ℕ) - 1 = 2 from rfl]
      push_cast
      field_simp
    · filter_upwards with x
      simp [div_eq_mul_inv]
  have cond : p.bv.isSome = true ∨ p.bv.getD p.na ≤ v := by
    rcases hb with h | h
    · exact Or.inl h
    · cases hbv : p.bv with
      | some b => exact Or.inl rfl
      | none => exact Or.inr h
  simp only [Par.evSpice]
  rcases lt_trichotomy v (-3 * p.vt) with h | h | h
  · rw [if_neg (not_le.2 h), if_pos cond]
    have hv0 : v ≠ 0 := by intro hh; rw [hh] at h; linarith
    refine ⟨by simp only [lawSpice, if_neg (not_le.2 h)], ?_⟩
    refine (dR v hv0).congr_of_eventuallyEq ?_
    filter_upwards [gt_mem_nhds h] with x hx
    simp only [lawSpice, if_neg (not_le.2 hx)]
  · rw [if_pos h.ge]
    refine ⟨by simp only [lawSpice, if_pos h.ge, J], ?_⟩
    have hv0 : v ≠ 0 := by rw [h]; have := ht.ne'; simp [this]
    have ev : Real.exp (v / p.vt) = (Real.exp 1)⁻¹ ^ 3 := by
      rw [h, show -3 * p.vt / p.vt = -1 + (-1) + (-1) by field_simp; ring, Real.exp_add, Real.exp_add, Real.exp_neg]; ring
    have harg : 3 * p.vt / (v * Real.exp 1) = -(Real.exp 1)⁻¹ := by rw [h]; have := ht.ne'; field_simp
    refine hasDerivAt_meet (fun x => -p.isat * (1 + (3 * p.vt / (x * Real.exp 1)) ^ 3) + p.gmin * x)
      (fun x => J p.isat p.vt x + p.gmin * x) v _ ((dR v hv0).congr_deriv ?_) (dJ v) ?_ _ ?_ ?_
    · rw [harg, ev, h]
      have := ht.ne'
      field_simp
    · simp only [J]; rw [harg, ev]; ring
    · intro x hx
      rcases eq_or_lt_of_le hx with rfl | hx
      · simp only [lawSpice, if_pos h.ge, J]; rw [harg, ev]; ring
      · simp only [lawSpice, if_neg (not_le.2 (lt_of_lt_of_eq hx h))]
    · intro x hx; simp only [lawSpice, if_pos (h ▸ hx)]
  · rw [if_pos h.le]
    refine ⟨by simp only [lawSpice, if_pos h.le, J], ?_⟩
    refine (dJ v).congr_of_eventuallyEq ?_
    filter_upwards [lt_mem_nhds h] with x hx
    simp only [lawSpice, if_pos hx.le]

/-- Specification: the characteristic of a junction of a mosfet, or with flag 0040 -/
noncomputable def Par.law (p : Par) (v : ℝ) : ℝ :=
  if p.level = 0 then lawSpice p v else if p.level ≤ 6 then lawLow p v else lawHigh p v

/-- such a junction -/
def Par.Limited (p : Par) : Prop := p.level ≤ 8 ∧ (p.level = 0 → p.fl.b0040 = true)

theorem limited_eq (p : Par) (ht : 0 < p.vt) (h : p.Limited) (init : Bool) (old : Region) (vold amps volts : ℝ)
    (hb : p.bv.isSome = true ∨ p.na ≤ p.limit vold volts) :
    (p.evalYj init old vold amps volts).f0 = p.law (p.limit vold volts) ∧
    HasDerivAt p.law (p.evalYj init old vold amps volts).f1 (p.limit vold volts) := by
  obtain ⟨h8, h0⟩ := h
  by_cases hl : p.level = 0
  · have e : p.law = lawSpice p := by funext v; simp only [Par.law, if_pos hl]
    simp only [Par.evalYj, hl, h0 hl, gt_iff_lt, lt_irrefl, if_false, if_true, e]
    exact spice_exact p ht old _ hb
  · have hp : p.level > 0 := by omega
    simp only [Par.evalYj, if_pos hp]
    by_cases h6 : p.level ≤ 6
    · have e : p.law = lawLow p := by funext v; simp only [Par.law, if_neg hl, if_pos h6]
      rw [e]; exact low_exact p ⟨hp, h6⟩ old _
    · have e : p.law = lawHigh p := by funext v; simp only [Par.law, if_neg hl, if_neg h6]
      rw [e]; exact high_exact p ⟨by omega, h8⟩ old _

theorem limit_id (p : Par) (vold volts : ℝ) (h : volts ≤ p.vcrit ∨ |volts - vold| ≤ p.vt + p.vt) : p.limit vold volts = volts := by
  unfold Par.limit
  have : ¬ (p.vcrit < volts ∧ p.vt + p.vt < |volts - vold|) := by
    rintro ⟨a, b⟩
    rcases h with h | h <;> linarith
  rw [if_neg this]
  simp

/-- **C69, junctions of mosfets and flag 0040.**  Up to the critical voltage value and slope are those of a smooth characteristic. -/
theorem limited_exact (p : Par) (ht : 0 < p.vt) (h : p.Limited) (init : Bool) (old : Region) (vold amps volts : ℝ)
    (hc : volts ≤ p.vcrit ∨ |volts - vold| ≤ p.vt + p.vt) (hb : p.bv.isSome = true ∨ p.na ≤ volts) :
    (p.evalYj init old vold amps volts).f0 = p.law volts ∧ HasDerivAt p.law (p.evalYj init old vold amps volts).f1 volts := by
  have e := limit_id p vold volts hc
  have := limited_eq p ht h init old vold amps volts (by rwa [e])
  rwa [e] at this

example (vold amps : ℝ) : ((Par.mk 1 1 0 0 3 {} none 0).evalYj false .unknown vold amps (-1)).f0 = (Par.mk 1 1 0 0 3 {} (some 5) 0).law (-1) :=
  (limited_exact ⟨1, 1, 0, 0, 3, {}, some 5, 0⟩ one_pos ⟨by norm_num, by norm_num⟩ false .unknown vold amps (-1) (by
    left
    have h2 : Real.log (Real.sqrt 2) ≤ Real.sqrt 2 - 1 := Real.log_le_sub_one_of_pos (by positivity)
    have h3 : Real.sqrt 2 ≤ 2 := by rw [Real.sqrt_le_left (by norm_num)]; norm_num
    simp only [Par.vcrit, one_mul, mul_one]
    rw [one_div, Real.log_inv]
    linarith) (Or.inl rfl)).1

/-- slopes are positive -/
theorem limited_slope (p : Par) (ht : 0 < p.vt) (hi : 0 < p.isat) (hg : 0 ≤ p.gmin) (h : p.Limited) (old : Region) (v : ℝ)
    (hb : p.bv.isSome = true ∨ p.na ≤ v) : 0 < (if p.level > 0 then p.evMos old v else p.evSpice old v).f1 := by
  have h1 : 0 < p.isat / p.vt := by positivity
  have h2 : ∀ x, 0 < p.isat * Real.exp x / p.vt := fun x => by positivity
  by_cases hp : p.level > 0
  · rw [if_pos hp]
    simp only [Par.evMos]
    split
    · split
      · simp only []; linarith
      · simp only []; linarith [h2 (v / p.vt)]
    · rw [if_pos h.1]
      split
      · simp only []; linarith [h2 (v / p.vt)]
      · simp only []; linarith [h2 (1 / 2 / p.vt)]
  · rw [if_neg hp]
    simp only [Par.evSpice]
    split
    · simp only []; linarith [h2 (v / p.vt)]
    · rename_i hv
      have hv' : v < 0 := by nlinarith
      have cond : p.bv.isSome = true ∨ p.bv.getD p.na ≤ v := by
        rcases hb with h | h
        · exact Or.inl h
        · cases hbv : p.bv with
          | some b => exact Or.inl rfl
          | none => exact Or.inr h
      rw [if_pos cond]
      simp only []
      have hE := Real.exp_pos 1
      have ha : 3 * p.vt / (v * Real.exp 1) < 0 := div_neg_of_pos_of_neg (by positivity) (mul_neg_of_neg_of_pos hv' hE)
      have ha3 : (3 * p.vt / (v * Real.exp 1)) ^ 3 < 0 := Odd.pow_neg (by decide) ha
      have : 0 < p.isat * 3 * (3 * p.vt / (v * Real.exp 1)) ^ 3 / v :=
        div_pos_of_neg_of_neg (mul_neg_of_pos_of_neg (by positivity) ha3) hv'
      linarith

/-- the characteristic is increasing -/
theorem law_strictMono (p : Par) (ht : 0 < p.vt) (hi : 0 < p.isat) (hg : 0 ≤ p.gmin) (h : p.Limited) : StrictMono p.law := by
  -- the characteristic does not depend on `bv`
  let q : Par := { p with bv := some 0 }
  have hq : q.Limited := h
  have e : q.law = p.law := by funext v; simp [Par.law, q, lawSpice, lawLow, lawHigh]
  rw [← e]
  apply strictMono_of_deriv_pos
  intro v
  have hs := limited_slope q ht hi hg hq .unknown v (Or.inl rfl)
  have hd : HasDerivAt q.law (if q.level > 0 then q.evMos .unknown v else q.evSpice .unknown v).f1 v := by
    by_cases hl : q.level = 0
    · have e : q.law = lawSpice q := by funext v; simp only [Par.law, if_pos hl]
      rw [e, if_neg (by omega)]
      exact (spice_exact q ht .unknown v (Or.inl rfl)).2
    · have hp : q.level > 0 := by omega
      rw [if_pos hp]
      by_cases h6 : q.level ≤ 6
      · have e : q.law = lawLow q := by funext v; simp only [Par.law, if_neg hl, if_pos h6]
        rw [e]; exact (low_exact q ⟨hp, h6⟩ _ v).2
      · have e : q.law = lawHigh q := by funext v; simp only [Par.law, if_neg hl, if_neg h6]
        rw [e]; exact (high_exact q ⟨by omega, hq.1⟩ _ v).2
  rw [hd.deriv]
  exact hs

/-- limiting only takes away -/
theorem limit_lt (p : Par) (ht : 0 < p.vt) (h : p.Limited) (vold volts : ℝ) (hv : 0 < volts) (hc : p.vcrit < volts)
    (hd : p.vt + p.vt < |volts - vold|) : p.limit vold volts < volts := by
  have h1 : (p.level > 0 || p.fl.b0040) = true := by
    by_cases hl : p.level = 0
    · simp [h.2 hl]
    · simp [Nat.pos_of_ne_zero hl]
  unfold Par.limit
  rw [if_pos h1, if_pos ⟨hc, hd⟩]
  split
  · split
    · rename_i h0 ha
      have hu : 1 + (volts - vold) / p.vt ≠ 1 := by
        intro hh
        have : (volts - vold) / p.vt = 0 := by linarith
        rcases div_eq_zero_iff.1 this with hx | hx
        · rw [hx] at hd; simp at hd; linarith
        · exact ht.ne' hx
      have := Real.log_lt_sub_one_of_pos ha hu
      have : p.vt * Real.log (1 + (volts - vold) / p.vt) < p.vt * ((volts - vold) / p.vt) := mul_lt_mul_of_pos_left (by linarith) ht
      rw [mul_div_cancel₀ _ ht.ne'] at this
      linarith
    · exact hc
  · have hx : 0 < volts / p.vt := by positivity
    have := Real.log_le_sub_one_of_pos hx
    have : p.vt * Real.log (volts / p.vt) ≤ p.vt * (volts / p.vt - 1) := mul_le_mul_of_nonneg_left this ht.le
    rw [mul_sub, mul_div_cancel₀ _ ht.ne'] at this
    linarith

/-- **C69 fails above the critical voltage** (d_diode.model:205): what limiting takes for the last voltage is the last current.
Where that is not within two thermal voltages of the voltage (in volts and ampere!), too little current is handed back, iteration
after iteration. -/
theorem limit_short (p : Par) (ht : 0 < p.vt) (hi : 0 < p.isat) (hg : 0 ≤ p.gmin) (h : p.Limited) (volts : ℝ) (hv : 0 < volts)
    (hc : p.vcrit < volts) (s : Yj) (hd : s.y1f0 < volts - (p.vt + p.vt)) (hb : p.bv.isSome = true ∨ p.na ≤ p.limit s.y1f0 volts) :
    (s.doTr p false volts).y1f0 < p.law volts := by
  have e : (s.doTr p false volts).y1f0 = p.law (p.limit s.y1f0 volts) :=
    (limited_eq p ht h false s.region s.y1f0 (s.c1 * volts + s.c0) volts hb).1
  rw [e]
  exact law_strictMono p ht hi hg h (limit_lt p ht h _ _ hv hc (by rw [lt_abs]; left; linarith))

/-- ... for ever, if the current is small against the voltage: no iteration at a held voltage finds the current, nor leaves it alone
if it is there. -/
theorem limit_never (p : Par) (ht : 0 < p.vt) (hi : 0 < p.isat) (hg : 0 ≤ p.gmin) (h : p.Limited) (hb : p.bv.isSome = true)
    (volts : ℝ) (hv : 0 < volts) (hc : p.vcrit < volts) (hsmall : p.law volts ≤ volts - (p.vt + p.vt)) (s : Yj)
    (hd : s.y1f0 < volts - (p.vt + p.vt)) (n : ℕ) : ((Yj.doTr p false volts)^[n + 1] s).y1f0 < p.law volts := by
  have key : ∀ n, ((Yj.doTr p false volts)^[n] s).y1f0 < volts - (p.vt + p.vt) := by
    intro n
    induction n with
    | zero => exact hd
    | succ n ih =>
      rw [Function.iterate_succ_apply']
      exact lt_of_lt_of_le (limit_short p ht hi hg h volts hv hc _ ih (Or.inl hb)) hsmall
  rw [Function.iterate_succ_apply']
  exact limit_short p ht hi hg h volts hv hc _ (key n) (Or.inl hb)

/-- the hypotheses can be met: saturation current `exp (-20)`, thermal voltage 1, held at 20 -/
example : let p : Par := ⟨Real.exp (-20), 1, 0, 0, 1, {}, some 50, 0⟩
    p.Limited ∧ p.vcrit < 20 ∧ p.law 20 ≤ 20 - (p.vt + p.vt) := by
  have hs : Real.log (Real.sqrt 2) > 0 := Real.log_pos (by rw [Real.lt_sqrt] <;> norm_num)
  refine ⟨⟨by norm_num, by norm_num⟩, ?_, ?_⟩
  · simp only [Par.vcrit, one_mul]
    rw [one_div, Real.log_inv, Real.log_mul (by positivity) (by positivity), Real.log_exp]
    linarith
  · simp only [Par.law, lawLow, J]
    norm_num
    have e : Real.exp (-20) * (Real.exp 20 - 1) = 1 - Real.exp (-20) := by
      rw [mul_sub, ← Real.exp_add]; norm_num
    rw [e]
    linarith [Real.exp_pos (-20)]

/-- **No breakdown.**  `bv` has no effect (the condition at d_diode.model:266 is inverted): whatever it is, the reverse current
stays below the saturation current and that of gmin. -/
theorem no_breakdown (p : Par) (ht : 0 < p.vt) (hi : 0 < p.isat) (hl : p.level = 0) (h : p.fl.b0040 = true) (b : ℝ) (hb : p.bv = some b)
    (init : Bool) (old : Region) (vold amps volts : ℝ) (hv : volts < 0) (hc : volts ≤ p.vcrit) :
    -p.isat + p.gmin * volts < (p.evalYj init old vold amps volts).f0 := by
  have hlim : p.Limited := ⟨by omega, fun _ => h⟩
  rw [(limited_exact p ht hlim init old vold amps volts (Or.inl hc) (Or.inl (by rw [hb]; rfl))).1]
  simp only [Par.law, if_pos hl, lawSpice]
  split
  · have : 0 < p.isat * Real.exp (volts / p.vt) := by positivity
    unfold J; linarith
  · have hE := Real.exp_pos 1
    have ha : 3 * p.vt / (volts * Real.exp 1) < 0 := div_neg_of_pos_of_neg (by positivity) (mul_neg_of_neg_of_pos hv hE)
    have ha3 : (3 * p.vt / (volts * Real.exp 1)) ^ 3 < 0 := Odd.pow_neg (by decide) ha
    have : 0 < -p.isat * (3 * p.vt / (volts * Real.exp 1)) ^ 3 := by nlinarith
    linarith

/-- The usual model has none either. -/
theorem no_breakdown_usual (p : Par) (h : p.Usual) (h10 : p.fl.b0010 = false) (hi : 0 < p.isat) (old : Region)
    (vold amps volts : ℝ) (hv : volts ≤ 0) :
    -p.isat + (p.revPara + p.para) * volts < (p.evalYj false old vold amps volts).f0 := by
  rw [(reverse_exact p h h10 old vold amps volts hv).1]
  have : 0 < p.isat * Real.exp (volts / p.vt) := by positivity
  unfold J; linarith

/-! ## temperature -/

theorem satCurrent_nominal (is kq tnom n xti eg : ℝ) (h : 0 < tnom) : satCurrent is kq tnom tnom n xti eg = is := by
  simp [satCurrent, div_self h.ne']

/-- The saturation current grows with temperature. -/
theorem satCurrent_mono (is kq tnom n xti eg : ℝ) (hi : 0 < is) (hk : 0 < kq) (h : 0 < tnom) (hn : 0 < n) (hx : 0 ≤ xti) (he : 0 < eg)
    (t1 t2 : ℝ) (h1 : 0 < t1) (h12 : t1 < t2) : satCurrent is kq t1 tnom n xti eg < satCurrent is kq t2 tnom n xti eg := by
  unfold satCurrent
  have h2 : 0 < t2 := h1.trans h12
  have hp : (t1 / tnom) ^ xti ≤ (t2 / tnom) ^ xti := Real.rpow_le_rpow (by positivity) (by gcongr) hx
  have he' : ∀ t, 0 < t → eg / thermal kq t n * (t / tnom - 1) = eg / (kq * n) * (1 / tnom - 1 / t) := by
    intro t ht; unfold thermal; field_simp
  have hx : Real.exp (eg / thermal kq t1 n * (t1 / tnom - 1)) < Real.exp (eg / thermal kq t2 n * (t2 / tnom - 1)) := by
    apply Real.exp_lt_exp.2
    rw [he' t1 h1, he' t2 h2]
    have : 1 / t2 < 1 / t1 := one_div_lt_one_div_of_lt h1 h12
    have hc : 0 < eg / (kq * n) := by positivity
    nlinarith
  have hp1 : 0 < (t1 / tnom) ^ xti := Real.rpow_pos_of_pos (by positivity) _
  have : is * (t1 / tnom) ^ xti ≤ is * (t2 / tnom) ^ xti := by gcongr
  exact mul_lt_mul' this hx (Real.exp_pos _).le (by positivity)

/-! ## capacitance and charge -/

/-- slope of the junction capacitance -/
noncomputable def junctionSlope (cj pb mj fc v : ℝ) : ℝ :=
  if v < fc * pb then cj * mj / pb * (1 - v / pb) ^ (-(1 + mj)) else cj / (1 - fc) ^ (1 + mj) * (mj / pb)

/-- **C69, capacitance.**  The two parts join smoothly. -/
theorem junction_smooth (cj pb mj fc : ℝ) (hcj : 0 < cj) (hpb : 0 < pb) (hfc : fc < 1) (v : ℝ) :
    HasDerivAt (junction cj pb mj fc) (junctionSlope cj pb mj fc v) v := by
  have h1 : 0 < 1 - fc := by linarith
  have dL : ∀ v, v < pb → HasDerivAt (fun x => cj / (1 - x / pb) ^ mj) (cj * mj / pb * (1 - v / pb) ^ (-(1 + mj))) v := by
    intro v hv
    have hb : 0 < 1 - v / pb := by rw [sub_pos, div_lt_one hpb]; exact hv
    have h2 : HasDerivAt (fun x : ℝ => 1 - x / pb) (-(1 / pb)) v := ((hasDerivAt_id v).div_const pb).const_sub 1
    have h3 := (h2.rpow_const (p := -mj) (Or.inl hb.ne')).const_mul cj
    refine (h3.congr_deriv ?_).congr_of_eventuallyEq ?_
    · rw [show -mj - 1 = -(1 + mj) by ring]; ring
    · have : ∀ᶠ x in nhds v, x < pb := gt_mem_nhds hv
      filter_upwards [this] with x hx
      have hb : 0 < 1 - x / pb := by rw [sub_pos, div_lt_one hpb]; exact hx
      rw [Real.rpow_neg hb.le]; rfl
  have dR : ∀ v, HasDerivAt (fun x => cj / (1 - fc) ^ (1 + mj) * (1 - fc * (1 + mj) + x / pb * mj)) (cj / (1 - fc) ^ (1 + mj) * (mj / pb)) v := by
    intro v
    have h2 : HasDerivAt (fun x : ℝ => x / pb * mj) (1 / pb * mj) v := ((hasDerivAt_id v).div_const pb).mul_const mj
    exact ((h2.const_add (1 - fc * (1 + mj))).const_mul (cj / (1 - fc) ^ (1 + mj))).congr_deriv (by ring)
  have hfp : fc * pb < pb := by nlinarith
  rcases lt_trichotomy v (fc * pb) with h | h | h
  · simp only [junctionSlope, if_pos h]
    refine (dL v (h.trans hfp)).congr_of_eventuallyEq ?_
    filter_upwards [gt_mem_nhds h] with x hx
    simp only [junction, if_pos hcj.ne', if_pos hx]
  · have hq : v / pb = fc := by rw [h]; field_simp
    have hmeet : cj / (1 - v / pb) ^ mj = cj / (1 - fc) ^ (1 + mj) * (1 - fc * (1 + mj) + v / pb * mj) := by
      rw [hq, Real.rpow_add h1, Real.rpow_one]
      have := (Real.rpow_pos_of_pos h1 mj).ne'
      field_simp
      ring
    simp only [junctionSlope, if_neg (show ¬ v < fc * pb by rw [h]; exact lt_irrefl _)]
    refine hasDerivAt_meet (fun x => cj / (1 - x / pb) ^ mj) (fun x => cj / (1 - fc) ^ (1 + mj) * (1 - fc * (1 + mj) + x / pb * mj)) v _
      ((dL v (h ▸ hfp)).congr_deriv ?_) (dR v) hmeet _ ?_ ?_
    · rw [hq, Real.rpow_neg h1.le]; ring
    · intro x hx
      rcases eq_or_lt_of_le hx with rfl | hx
      · simp only [junction, if_pos hcj.ne', if_neg (show ¬ x < fc * pb by rw [h]; exact lt_irrefl _)]
        exact hmeet.symm
      · simp only [junction, if_pos hcj.ne', if_pos (lt_of_lt_of_eq hx h)]
    · intro x hx
      simp only [junction, if_pos hcj.ne', if_neg (not_lt.2 (h ▸ hx))]
  · simp only [junctionSlope, if_neg (not_lt.2 h.le)]
    refine (dR v).congr_of_eventuallyEq ?_
    filter_upwards [lt_mem_nhds h] with x hx
    simp only [junction, if_pos hcj.ne', if_neg (not_lt.2 hx.le)]

/-- it is positive and grows with the voltage -/
theorem junction_pos_mono (cj pb mj fc : ℝ) (hcj : 0 < cj) (hpb : 0 < pb) (hmj : 0 ≤ mj) (hfc : fc < 1) :
    (∀ v, 0 < junction cj pb mj fc v) ∧ Monotone (junction cj pb mj fc) := by
  have h1 : 0 < 1 - fc := by linarith
  have hfp : fc * pb < pb := by nlinarith
  constructor
  · intro v
    simp only [junction, if_pos hcj.ne']
    split
    · rename_i h
      have hb : 0 < 1 - v / pb := by rw [sub_pos, div_lt_one hpb]; linarith
      exact div_pos hcj (Real.rpow_pos_of_pos hb _)
    · rename_i h
      have hq : fc ≤ v / pb := by rw [le_div_iff₀ hpb]; exact not_lt.1 h
      apply mul_pos (div_pos hcj (Real.rpow_pos_of_pos h1 _))
      nlinarith
  · apply monotone_of_deriv_nonneg (fun v => (junction_smooth cj pb mj fc hcj hpb hfc v).differentiableAt)
    intro v
    rw [(junction_smooth cj pb mj fc hcj hpb hfc v).deriv]
    unfold junctionSlope
    split
    · rename_i h
      have hb : 0 < 1 - v / pb := by rw [sub_pos, div_lt_one hpb]; linarith
      have := Real.rpow_pos_of_pos hb (-(1 + mj))
      positivity
    · have := Real.rpow_pos_of_pos h1 (1 + mj)
      positivity

/-- the charge after a run through voltages, transient: what `eval Cj` finds stored is what it put there at the accepted step before -/
noncomputable def CPar.run (c : CPar) : ℝ × ℝ → List ℝ → ℝ × ℝ
  | s, [] => s
  | s, v :: vs => CPar.run c (v, c.charge 0 v (some (s.1, s.2, c.cap 0 s.1))) vs

/-- how much the capacitance and the voltage move, step by step -/
noncomputable def CPar.slack (c : CPar) : ℝ → List ℝ → ℝ
  | _, [] => 0
  | v, w :: vs => |w - v| * |c.cap 0 w - c.cap 0 v| / 2 + CPar.slack c w vs

/-- **C69, charge.**  Over any run of voltages the charge moved is that of the capacitance, up to half the sum of the steps in
voltage times the steps in capacitance. -/
theorem charge_close (c : CPar) (hm : Monotone (c.cap 0)) (Q : ℝ → ℝ) (hQ : ∀ v, HasDerivAt Q (c.cap 0 v) v) (v0 q0 : ℝ) (vs : List ℝ) :
    |((c.run (v0, q0) vs).2 - q0) - (Q (c.run (v0, q0) vs).1 - Q v0)| ≤ c.slack v0 vs := by
  induction vs generalizing v0 q0 with
  | nil => simp [CPar.run, CPar.slack]
  | cons w vs ih =>
    have step : |(c.charge 0 w (some (v0, q0, c.cap 0 v0)) - q0) - (Q w - Q v0)| ≤ |w - v0| * |c.cap 0 w - c.cap 0 v0| / 2 := by
      have mvt : ∃ k, Q w - Q v0 = k * (w - v0) ∧ |k - (c.cap 0 w + c.cap 0 v0) / 2| ≤ |c.cap 0 w - c.cap 0 v0| / 2 := by
        rcases lt_trichotomy v0 w with h | h | h
        · obtain ⟨x, hx, he⟩ := exists_hasDerivAt_eq_slope Q (c.cap 0) h (fun x _ => (hQ x).continuousAt.continuousWithinAt) (fun x _ => hQ x)
          refine ⟨c.cap 0 x, by rw [he]; have : w - v0 ≠ 0 := by linarith
                                field_simp, ?_⟩
          have a := hm hx.1.le
          have b := hm hx.2.le
          rw [abs_of_nonneg (by linarith : 0 ≤ c.cap 0 w - c.cap 0 v0), abs_le]
          constructor <;> linarith
        · subst h
          exact ⟨c.cap 0 v0, by ring, by simp⟩
        · obtain ⟨x, hx, he⟩ := exists_hasDerivAt_eq_slope Q (c.cap 0) h (fun x _ => (hQ x).continuousAt.continuousWithinAt) (fun x _ => hQ x)
          refine ⟨c.cap 0 x, by rw [he]; have : v0 - w ≠ 0 := by linarith
                                field_simp; ring, ?_⟩
          have a := hm hx.1.le
          have b := hm hx.2.le
          rw [abs_of_nonpos (by linarith : c.cap 0 w - c.cap 0 v0 ≤ 0), abs_le]
          constructor <;> linarith
      obtain ⟨k, hk, hb⟩ := mvt
      have e : (c.charge 0 w (some (v0, q0, c.cap 0 v0)) - q0) - (Q w - Q v0) = -((w - v0) * (k - (c.cap 0 w + c.cap 0 v0) / 2)) := by
        rw [hk]; simp only [CPar.charge]; ring
      rw [e, abs_neg, abs_mul]
      calc |w - v0| * |k - (c.cap 0 w + c.cap 0 v0) / 2| ≤ |w - v0| * (|c.cap 0 w - c.cap 0 v0| / 2) :=
            mul_le_mul_of_nonneg_left hb (abs_nonneg _)
        _ = _ := by ring
    have := ih w (c.charge 0 w (some (v0, q0, c.cap 0 v0)))
    simp only [CPar.run, CPar.slack]
    rw [abs_le] at this step ⊢
    constructor <;> linarith [this.1, this.2, step.1, step.2]

/-- the hypotheses hold without transit time -/
theorem cap_monotone (c : CPar) (h1 : 0 < c.cj) (h2 : 0 < c.pb) (h3 : 0 ≤ c.mj) (h4 : c.cjsw = 0) (h5 : c.fc < 1) : Monotone (c.cap 0) := by
  intro a b h
  simp only [CPar.cap, h4, junction, ne_eq, not_true_eq_false, if_false, zero_mul, ite_self, add_zero]
  exact (junction_pos_mono c.cj c.pb c.mj c.fc h1 h2 h3 h5).2 h

theorem cap_charge (c : CPar) (h1 : 0 < c.cj) (h2 : 0 < c.pb) (h4 : c.cjsw = 0) (h5 : c.fc < 1) :
    ∃ Q : ℝ → ℝ, ∀ v, HasDerivAt Q (c.cap 0 v) v := by
  have hc : Continuous (c.cap 0) := by
    have e : c.cap 0 = junction c.cj c.pb c.mj c.fc := by
      funext v
      simp only [CPar.cap, h4, junction, ne_eq, not_true_eq_false, if_false, zero_mul, ite_self, add_zero]
    rw [e]
    exact continuous_iff_continuousAt.2 fun v => (junction_smooth c.cj c.pb c.mj c.fc h1 h2 h5 v).continuousAt
  exact ⟨fun v => ∫ x in (0 : ℝ)..v, c.cap 0 x, fun v => (hc.integral_hasStrictDerivAt 0 v).hasDerivAt⟩

example : ∃ Q : ℝ → ℝ, |((CPar.run ⟨1, 1, 1 / 2, 0, 1, 1, 1 / 2, 0⟩ (0, 0) [1, 2, -5]).2 - 0) -
    (Q (CPar.run ⟨1, 1, 1 / 2, 0, 1, 1, 1 / 2, 0⟩ (0, 0) [1, 2, -5]).1 - Q 0)| ≤ CPar.slack ⟨1, 1, 1 / 2, 0, 1, 1, 1 / 2, 0⟩ 0 [1, 2, -5] := by
  obtain ⟨Q, hQ⟩ := cap_charge ⟨1, 1, 1 / 2, 0, 1, 1, 1 / 2, 0⟩ one_pos one_pos rfl (by norm_num)
  exact ⟨Q, charge_close _ (cap_monotone _ one_pos one_pos (by norm_num) rfl (by norm_num)) Q hQ 0 0 _⟩

/-- **Charge is not a function of the voltage** (d_diode.model:178-183): back at the voltage it started from, a junction
capacitance holds 3/8 more. -/
theorem charge_drifts : (CPar.run ⟨1, 1, 1, 0, 1, 1, 1 / 2, 0⟩ (0, 0) [-1, -3, 0]) = (0, 3 / 8) := by
  have h : ∀ v : ℝ, v < 1 / 2 → (CPar.mk 1 1 1 0 1 1 (1 / 2) 0).cap 0 v = 1 / (1 - v) := by
    intro v hv
    simp [CPar.cap, junction, show v < 2⁻¹ by linarith]
  simp only [CPar.run, CPar.charge, h (-1) (by norm_num), h (-3) (by norm_num), h 0 (by norm_num)]
  norm_num

end Gnucap.Diode
