import Verif.MeyerModel
import Mathlib.Topology.Algebra.Order.Field
import Mathlib.Topology.Order.Lattice
import Mathlib.Topology.Instances.Real.Lemmas
import Mathlib.Tactic.Linarith
import Mathlib.Tactic.FieldSimp
import Mathlib.Tactic.Ring
import Mathlib.Tactic.Positivity
import Mathlib.Tactic.NormNum

/-!
# Gate capacitances (C72)
-/
namespace Gnucap.Meyer
section
variable {F : Type _} [Field F] [LinearOrder F] [IsStrictOrderedRing F]

/-- biases a device gets: `vds` is not negative, saturation voltage positive exactly above threshold, bulk not forward -/
structure Bias.Ok (b : Bias F) : Prop where
  vds : 0 ≤ b.vds
  on : 0 < b.vgst → 0 < b.vdsat
  off : b.vgst ≤ 0 → b.vdsat = 0
  vbs : b.vbs ≤ 0

theorem vb_le (p : Par F) (b : Bias F) (h : b.Ok) : p.vb b ≤ 0 := by
  unfold Par.vb; split
  · exact le_rfl
  · exact h.vbs

/-- C72: no division by zero: the denominator is positive wherever it is used -/
theorem ddif_pos (p : Par F) (b : Bias F) (h : b.Ok) (hl : b.vds < b.vdsat) : 0 < p.ddif b ∧ p.ddif b = p.vdbsat b + (b.vdsat - b.vds) := by
  have h1 := vb_le p b h
  have h2 := h.vds
  have e : p.ddif b = p.vdbsat b + (b.vdsat - b.vds) := by unfold Par.ddif Par.vdbsat; ring
  refine ⟨?_, e⟩
  rw [e]; unfold Par.vdbsat; linarith

theorem ratio_bounds {a s : F} (ha : 0 ≤ a) (hb : 0 < s) : 0 ≤ a * a / ((s + a) * (s + a)) ∧ a * a / ((s + a) * (s + a)) ≤ 1 := by
  refine ⟨by positivity, ?_⟩
  rw [div_le_one (by positivity)]
  nlinarith

/-- C72: bounds of each part: nothing negative, no more than two thirds of the gate, together with the bulk no more than the gate -/
theorem bounds (p : Par F) (b : Bias F) (h : b.Ok) (hg : 0 ≤ p.cgate) (hp : 0 < p.phi) (hc : p.cmodel ≠ 0) :
    0 ≤ p.drainEnd b ∧ p.drainEnd b ≤ 2 / 3 * p.cgate ∧ 0 ≤ p.sourceEnd b ∧ p.sourceEnd b ≤ 2 / 3 * p.cgate ∧
    p.cgbo ≤ p.cgb b ∧ p.drainEnd b + p.sourceEnd b + (p.cgb b - p.cgbo) ≤ p.cgate := by
  have hb : p.cgb b = if b.vgst < -p.phi then p.cgbo + p.cgate else if b.vgst < 0 then p.cgbo + p.cgate * (-b.vgst) / p.phi else p.cgbo := by
    unfold Par.cgb; rw [if_pos hc]
  rcases lt_or_ge b.vgst 0 with hv | hv
  · -- not above threshold
    have hd : p.drainEnd b = 0 := by unfold Par.drainEnd; rw [if_neg (not_le.mpr hv)]
    have hs0 : b.vdsat = 0 := h.off hv.le
    have hnl : ¬ b.vds < b.vdsat := by rw [hs0]; exact not_lt.mpr h.vds
    have hs : p.sourceEnd b = if -p.phi / 2 ≤ b.vgst then 2 / 3 * p.cgate * (1 + b.vgst / p.phi) * (1 + b.vgst / p.phi) else 0 := by
      unfold Par.sourceEnd; simp only [if_neg hnl, if_pos hv.le]
    rw [hd, hs, hb]
    rcases lt_or_ge b.vgst (-p.phi) with h1 | h1
    · have h2 : ¬ -p.phi / 2 ≤ b.vgst := by rw [not_le]; linarith
      rw [if_pos h1, if_neg h2]
      refine ⟨le_rfl, by positivity, le_rfl, by positivity, by linarith, by linarith⟩
    · rw [if_neg (not_lt.mpr h1), if_pos hv]
      set x := -b.vgst / p.phi with hx
      have e1 : b.vgst / p.phi = -x := by rw [hx]; ring
      have e2 : p.cgate * (-b.vgst) / p.phi = p.cgate * x := by rw [hx]; ring
      have x0 : 0 ≤ x := by rw [hx]; exact div_nonneg (by linarith) hp.le
      have x1 : x ≤ 1 := by rw [hx, div_le_one hp]; linarith
      rw [e1, e2]
      have m1 : 0 ≤ p.cgate * x := mul_nonneg hg x0
      have m2 : p.cgate * x ≤ p.cgate := by nlinarith
      by_cases h2 : -p.phi / 2 ≤ b.vgst
      · rw [if_pos h2]
        have x2 : x ≤ 1 / 2 := by rw [hx, div_le_iff₀ hp]; linarith
        have sq : (1 + -x) * (1 + -x) ≤ 1 := by nlinarith
        have sq0 : 0 ≤ (1 + -x) * (1 + -x) := mul_self_nonneg _
        have t : (2 : F) / 3 * ((1 + -x) * (1 + -x)) + x ≤ 1 := by nlinarith
        have a1 : 2 / 3 * p.cgate * (1 + -x) * (1 + -x) = p.cgate * (2 / 3 * ((1 + -x) * (1 + -x))) := by ring
        rw [a1]
        refine ⟨le_rfl, by positivity, mul_nonneg hg (by positivity), ?_, by linarith, ?_⟩
        · have := mul_le_mul_of_nonneg_left (show (2 : F) / 3 * ((1 + -x) * (1 + -x)) ≤ 2 / 3 by linarith) hg
          linarith
        · have := mul_le_mul_of_nonneg_left t hg
          linarith
      · rw [if_neg h2]
        refine ⟨le_rfl, by positivity, le_rfl, by positivity, by linarith, by linarith⟩
  · have hb' : p.cgb b = p.cgbo := by
      rw [hb, if_neg (not_lt.mpr (by linarith)), if_neg (not_lt.mpr hv)]
    have hsrc : -p.phi / 2 ≤ b.vgst := by linarith
    by_cases hl : b.vds < b.vdsat
    · have hv0 : 0 < b.vgst := by
        rcases hv.lt_or_eq with h1 | h1
        · exact h1
        · have h2 := h.off h1.symm.le
          have h3 := h.vds
          rw [h2] at hl
          exact absurd hl (not_lt.mpr h3)
      obtain ⟨d0, de⟩ := ddif_pos p b h hl
      have s0 : 0 < p.vdbsat b := by
        unfold Par.vdbsat; have := vb_le p b h; have := h.on hv0; linarith
      have n0 : 0 < b.vdsat - b.vds := by linarith
      obtain ⟨r1, r2⟩ := ratio_bounds n0.le s0
      have r3 : 0 ≤ p.vdbsat b * p.vdbsat b / ((p.vdbsat b + (b.vdsat - b.vds)) * (p.vdbsat b + (b.vdsat - b.vds))) ∧
          p.vdbsat b * p.vdbsat b / ((p.vdbsat b + (b.vdsat - b.vds)) * (p.vdbsat b + (b.vdsat - b.vds))) ≤ 1 := by
        have := ratio_bounds s0.le n0
        rw [add_comm (b.vdsat - b.vds)] at this
        exact this
      set s := p.vdbsat b with hs
      set n := b.vdsat - b.vds with hn
      have sum : 1 / 2 ≤ s * s / ((s + n) * (s + n)) + n * n / ((s + n) * (s + n)) := by
        rw [← add_div, le_div_iff₀ (by positivity)]
        nlinarith [mul_self_nonneg (s - n)]
      have hD : p.drainEnd b = if b.vgst ≤ 1 / 10 then 2 / 3 * p.cgate * (1 - s * s / ((s + n) * (s + n))) * (10 * b.vgst)
          else 2 / 3 * p.cgate * (1 - s * s / ((s + n) * (s + n))) := by
        unfold Par.drainEnd; rw [if_pos hv, if_pos hl, de]
      have hS : p.sourceEnd b = 2 / 3 * p.cgate * (1 - n * n / ((s + n) * (s + n))) := by
        unfold Par.sourceEnd; simp only [if_pos hsrc, if_pos hl, de, if_neg (not_le.mpr hv0), hn]
      have gS0 : 0 ≤ 2 / 3 * p.cgate * (1 - n * n / ((s + n) * (s + n))) := mul_nonneg (by positivity) (by linarith)
      have gD0 : 0 ≤ 2 / 3 * p.cgate * (1 - s * s / ((s + n) * (s + n))) := mul_nonneg (by positivity) (by linarith [r3.2])
      have gS1 : 2 / 3 * p.cgate * (1 - n * n / ((s + n) * (s + n))) ≤ 2 / 3 * p.cgate := mul_le_of_le_one_right (by positivity) (by linarith)
      have gD1 : 2 / 3 * p.cgate * (1 - s * s / ((s + n) * (s + n))) ≤ 2 / 3 * p.cgate := mul_le_of_le_one_right (by positivity) (by linarith [r3.1])
      have tot : 2 / 3 * p.cgate * (1 - s * s / ((s + n) * (s + n))) + 2 / 3 * p.cgate * (1 - n * n / ((s + n) * (s + n))) ≤ p.cgate := by
        have := mul_le_mul_of_nonneg_left sum (show 0 ≤ 2 / 3 * p.cgate by positivity)
        linarith
      have hDle : p.drainEnd b ≤ 2 / 3 * p.cgate * (1 - s * s / ((s + n) * (s + n))) := by
        rw [hD]; split
        · rename_i h10
          exact mul_le_of_le_one_right gD0 (by linarith)
        · exact le_rfl
      have hD0 : 0 ≤ p.drainEnd b := by
        rw [hD]; split
        · exact mul_nonneg gD0 (by linarith)
        · exact gD0
      refine ⟨hD0, hDle.trans gD1, by rw [hS]; exact gS0, by rw [hS]; exact gS1, hb'.symm.le, ?_⟩
      rw [hb', hS]; linarith
    · have hD : p.drainEnd b = 0 := by unfold Par.drainEnd; rw [if_pos hv, if_neg hl]
      have hS : p.sourceEnd b ≤ 2 / 3 * p.cgate ∧ 0 ≤ p.sourceEnd b := by
        unfold Par.sourceEnd
        simp only [if_pos hsrc, if_neg hl]
        split
        · have : b.vgst = 0 := le_antisymm (by assumption) hv
          rw [this]; simp only [zero_div, add_zero, mul_one]
          exact ⟨le_rfl, by positivity⟩
        · exact ⟨le_rfl, by positivity⟩
      rw [hD, hb']
      refine ⟨le_rfl, by positivity, hS.2, hS.1, le_rfl, ?_⟩
      have := hS.1
      linarith

example : Bias.Ok (⟨false, 1 / 20, 1 / 20, 1 / 40, -1⟩ : Bias ℚ) := ⟨by norm_num, fun _ => by norm_num, fun h => by norm_num at h, by norm_num⟩

/-- C72: a device gets such biases (level 1, bulk at the source) -/
theorem bias_ok (vto vg vd vs : F) : (bias vto vg vd vs).Ok := by
  unfold bias
  split
  · exact ⟨by simp only []; linarith, fun h => lt_max_of_lt_left h, fun h => max_eq_right h, le_rfl⟩
  · exact ⟨by simp only []; linarith, fun h => lt_max_of_lt_left h, fun h => max_eq_right h, le_rfl⟩

/-- C72: saturated, the drain has no part and the source two thirds; with no voltage along the channel, half each (bulk as source,
a tenth of a volt above threshold) -/
theorem ends (p : Par F) (b : Bias F) (h : b.Ok) (hv : 0 < b.vgst) (hp : 0 < p.phi) :
    (b.vdsat ≤ b.vds → p.drainEnd b = 0 ∧ p.sourceEnd b = 2 / 3 * p.cgate) ∧
    (b.vds = 0 → p.cmodel = 3 → 1 / 10 ≤ b.vgst → p.drainEnd b = p.cgate / 2 ∧ p.sourceEnd b = p.cgate / 2) := by
  have hsrc : -p.phi / 2 ≤ b.vgst := by linarith
  constructor
  · intro hl
    unfold Par.drainEnd Par.sourceEnd
    simp only [if_pos hv.le, if_pos hsrc, if_neg (not_lt.mpr hl), if_neg (not_le.mpr hv), and_self]
  · intro h0 h3 h10
    have s0 := h.on hv
    have hl : b.vds < b.vdsat := by rw [h0]; exact s0
    have e1 : p.vdbsat b = b.vdsat := by unfold Par.vdbsat Par.vb; rw [if_pos h3, sub_zero]
    have e2 : p.ddif b = 2 * b.vdsat := by unfold Par.ddif; rw [e1, h0]; unfold Par.vb; rw [if_pos h3]; ring
    unfold Par.drainEnd Par.sourceEnd
    simp only [if_pos hv.le, if_pos hsrc, if_pos hl, if_neg (not_le.mpr hv), e1, e2]
    rw [h0]
    refine ⟨?_, by field_simp; ring⟩
    have hX : 2 / 3 * p.cgate * (1 - b.vdsat * b.vdsat / (2 * b.vdsat * (2 * b.vdsat))) = p.cgate / 2 := by field_simp; ring
    rw [hX]
    split
    · have : b.vgst = 1 / 10 := le_antisymm (by assumption) h10
      rw [this]; ring
    · rfl

/-- C72: at the terminals: saturated, the gate has two thirds to the end that works as source and nothing to the other, besides the overlaps;
without a model there are the overlaps only -/
theorem terminals (p : Par F) (b : Bias F) (h : b.Ok) (hv : 0 < b.vgst) (hs : b.vdsat ≤ b.vds) (hp : 0 < p.phi) :
    (p.cmodel ≠ 0 → b.reversed = false → p.cgs b = 2 / 3 * p.cgate + p.cgso ∧ p.cgd b = p.cgdo) ∧
    (p.cmodel ≠ 0 → b.reversed = true → p.cgs b = p.cgso ∧ p.cgd b = 2 / 3 * p.cgate + p.cgdo) ∧
    (p.cmodel = 0 → p.cgs b = p.cgso ∧ p.cgd b = p.cgdo) := by
  obtain ⟨h1, h2⟩ := (ends p b h hv hp).1 hs
  unfold Par.cgs Par.cgd
  refine ⟨fun hm hr => ?_, fun hm hr => ?_, fun hm => ?_⟩
  · simp [hm, hr, h1, h2]
  · simp [hm, hr, h1, h2]
  · simp [hm]

example : (bias (1 : ℚ) 2 5 0).Ok ∧ 0 < (bias (1 : ℚ) 2 5 0).vgst ∧ (bias (1 : ℚ) 2 5 0).vdsat ≤ (bias (1 : ℚ) 2 5 0).vds :=
  ⟨bias_ok _ _ _ _, by norm_num [bias], by norm_num [bias]⟩

/-- C72: so exchanging the ends (bulk as source, a tenth of a volt above threshold) does not move the capacitances -/
theorem reversal (p : Par F) (b b' : Bias F) (hr : b'.reversed = !b.reversed) (h : b.Ok) (h' : b'.Ok) (h0 : b.vds = 0) (h0' : b'.vds = 0)
    (hv : 1 / 10 ≤ b.vgst) (hv' : 1 / 10 ≤ b'.vgst) (h3 : p.cmodel = 3) (hp : 0 < p.phi) :
    p.cgs b' = p.cgs b ∧ p.cgd b' = p.cgd b := by
  have h10 : (0 : F) < 1 / 10 := by norm_num
  have e := (ends p b h (by linarith) hp).2 h0 h3 hv
  have e' := (ends p b' h' (by linarith) hp).2 h0' h3 hv'
  unfold Par.cgs Par.cgd
  rw [hr, e.1, e.2, e'.1, e'.2]
  cases b.reversed <;> simp

/-- C72, violated: less than a tenth of a volt above threshold only the drain end is scaled: the capacitances are exchanged on reversal -/
theorem reversal_jumps (p : Par F) (b : Bias F) (h : b.Ok) (h0 : b.vds = 0) (hv : 0 < b.vgst) (hv1 : b.vgst < 1 / 10) (h3 : p.cmodel = 3)
    (hp : 0 < p.phi) (hg : 0 < p.cgate) :
    p.drainEnd b = p.cgate / 2 * (10 * b.vgst) ∧ p.sourceEnd b = p.cgate / 2 ∧ p.drainEnd b < p.sourceEnd b := by
  have hsrc : -p.phi / 2 ≤ b.vgst := by linarith
  have s0 := h.on hv
  have hl : b.vds < b.vdsat := by rw [h0]; exact s0
  have e1 : p.vdbsat b = b.vdsat := by unfold Par.vdbsat Par.vb; rw [if_pos h3, sub_zero]
  have e2 : p.ddif b = 2 * b.vdsat := by unfold Par.ddif; rw [e1, h0]; unfold Par.vb; rw [if_pos h3]; ring
  have hD : p.drainEnd b = p.cgate / 2 * (10 * b.vgst) := by
    unfold Par.drainEnd
    simp only [if_pos hv.le, if_pos hl, if_pos hv1.le, e1, e2]
    field_simp; ring
  have hS : p.sourceEnd b = p.cgate / 2 := by
    unfold Par.sourceEnd
    simp only [if_pos hsrc, if_pos hl, if_neg (not_le.mpr hv), e2]
    rw [h0]
    field_simp; ring
  refine ⟨hD, hS, ?_⟩
  rw [hD, hS]
  have : 10 * b.vgst < 1 := by linarith
  nlinarith

/-- C72, violated: with the bulk counted (`cmodel` not 3) and biased they are not equal at zero voltage either, at any gate voltage -/
theorem reversal_bulk (p : Par F) (b : Bias F) (h : b.Ok) (h0 : b.vds = 0) (hv : 1 / 10 < b.vgst) (h3 : p.cmodel ≠ 3) (hb : b.vbs < 0)
    (hp : 0 < p.phi) (hg : 0 < p.cgate) : p.drainEnd b < p.sourceEnd b := by
  have h10 : (0 : F) < 1 / 10 := by norm_num
  have hv0 : 0 < b.vgst := by linarith
  have hsrc : -p.phi / 2 ≤ b.vgst := by linarith
  have s0 := h.on hv0
  have hl : b.vds < b.vdsat := by rw [h0]; exact s0
  obtain ⟨d0, de⟩ := ddif_pos p b h hl
  have e1 : p.vdbsat b = b.vdsat - b.vbs := by unfold Par.vdbsat Par.vb; rw [if_neg h3]
  unfold Par.drainEnd Par.sourceEnd
  simp only [if_pos hv0.le, if_pos hsrc, if_pos hl, if_neg (not_le.mpr hv0), if_neg (not_le.mpr hv)]
  have hlt : (b.vdsat - b.vds) * (b.vdsat - b.vds) / (p.ddif b * p.ddif b) < p.vdbsat b * p.vdbsat b / (p.ddif b * p.ddif b) := by
    refine div_lt_div_of_pos_right ?_ (mul_pos d0 d0)
    rw [e1, h0]
    nlinarith
  have : 0 < 2 / 3 * p.cgate := by positivity
  nlinarith

/-- C72, violated: the source end jumps from nothing to a sixth of the gate half `phi` below threshold -/
theorem onset_jumps (p : Par F) (r : Bool) (vds vbs e : F) (hp : 0 < p.phi) (he : 0 < e) (hd : 0 ≤ vds) :
    p.sourceEnd ⟨r, -p.phi / 2 - e, 0, vds, vbs⟩ = 0 ∧ p.sourceEnd ⟨r, -p.phi / 2, 0, vds, vbs⟩ = p.cgate / 6 := by
  unfold Par.sourceEnd
  simp only [if_neg (not_lt.mpr hd)]
  refine ⟨by rw [if_neg (by rw [not_le]; linarith)], ?_⟩
  rw [if_pos le_rfl, if_pos (by linarith)]
  have : -p.phi / 2 / p.phi = -(1 / 2 : F) := by field_simp
  rw [this]; ring

/-- C72, violated: with no voltage along the channel the source end jumps from two thirds to a half at threshold -/
theorem threshold_jumps (p : Par F) (r : Bool) (vbs v : F) (hp : 0 < p.phi) (hv : 0 < v) (h3 : p.cmodel = 3) (hb : vbs ≤ 0) :
    p.sourceEnd ⟨r, 0, 0, 0, vbs⟩ = 2 / 3 * p.cgate ∧ p.sourceEnd ⟨r, v, v, 0, vbs⟩ = 1 / 2 * p.cgate := by
  have hsrc : -p.phi / 2 ≤ 0 := by linarith
  have hsrc' : -p.phi / 2 ≤ v := by linarith
  have e2 : p.ddif ⟨r, v, v, 0, vbs⟩ = 2 * v := by unfold Par.ddif Par.vdbsat Par.vb; simp only [if_pos h3]; ring
  constructor
  · unfold Par.sourceEnd; simp only [if_pos hsrc, lt_irrefl, if_false, le_refl, if_true]; ring
  · unfold Par.sourceEnd; simp only [if_pos hsrc', if_pos hv, if_neg (not_le.mpr hv), e2]
    field_simp; ring

end

/-- Specification: source end and drain end without cases, above threshold; `m` is what is left of the saturation voltage -/
noncomputable def meyerS (cg vdsat vds : ℝ) : ℝ := 2 / 3 * cg * (1 - (max (vdsat - vds) 0) ^ 2 / (vdsat + max (vdsat - vds) 0) ^ 2)
noncomputable def meyerD (cg vgst vdsat vds : ℝ) : ℝ :=
  2 / 3 * cg * (1 - vdsat ^ 2 / (vdsat + max (vdsat - vds) 0) ^ 2) * min 1 (10 * vgst)

/-- C72: above threshold both follow the formulas of Meyer (bulk as source), whether saturated or not -/
theorem meyer_eq (p : Par ℝ) (b : Bias ℝ) (h : b.Ok) (hv : 0 < b.vgst) (hp : 0 < p.phi) (h3 : p.cmodel = 3) :
    p.sourceEnd b = meyerS p.cgate b.vdsat b.vds ∧ p.drainEnd b = meyerD p.cgate b.vgst b.vdsat b.vds := by
  have s0 := h.on hv
  by_cases hl : b.vds < b.vdsat
  · obtain ⟨d0, de⟩ := ddif_pos p b h hl
    have hsrc : -p.phi / 2 ≤ b.vgst := by linarith
    have e1 : p.vdbsat b = b.vdsat := by unfold Par.vdbsat Par.vb; rw [if_pos h3, sub_zero]
    have hm : max (b.vdsat - b.vds) 0 = b.vdsat - b.vds := max_eq_left (by linarith)
    unfold Par.drainEnd Par.sourceEnd meyerS meyerD
    simp only [if_pos hv.le, if_pos hsrc, if_pos hl, if_neg (not_le.mpr hv), de, e1, hm]
    refine ⟨by ring, ?_⟩
    split
    · rw [min_eq_right (by linarith)]; ring
    · rw [min_eq_left (by linarith)]; ring
  · have hm : max (b.vdsat - b.vds) 0 = 0 := max_eq_right (by linarith)
    obtain ⟨a1, a2⟩ := (ends p b h hv hp).1 (not_lt.mp hl)
    rw [a1, a2]
    unfold meyerS meyerD
    rw [hm]
    have : b.vdsat ^ 2 / (b.vdsat + 0) ^ 2 = 1 := by rw [add_zero]; exact div_self (by positivity)
    refine ⟨by ring, by rw [this]; ring⟩

/-- C72: and these are continuous in all voltages above threshold -/
theorem meyer_continuous (cg : ℝ) :
    ContinuousOn (fun x : ℝ × ℝ => meyerS cg x.1 x.2) {x | 0 < x.1} ∧
    ContinuousOn (fun x : ℝ × ℝ × ℝ => meyerD cg x.1 x.2.1 x.2.2) {x | 0 < x.2.1} := by
  constructor
  · unfold meyerS
    refine ContinuousOn.mul continuousOn_const (continuousOn_const.sub (ContinuousOn.div ?_ ?_ ?_))
    · exact (((continuous_fst.sub continuous_snd).max continuous_const).pow 2).continuousOn
    · exact ((continuous_fst.add ((continuous_fst.sub continuous_snd).max continuous_const)).pow 2).continuousOn
    · intro x hx
      have h1 : (0 : ℝ) < x.1 := hx
      have h2 : (0 : ℝ) ≤ max (x.1 - x.2) 0 := le_max_right _ _
      positivity
  · unfold meyerD
    refine ContinuousOn.mul (ContinuousOn.mul continuousOn_const (continuousOn_const.sub (ContinuousOn.div ?_ ?_ ?_))) ?_
    · exact ((continuous_fst.comp continuous_snd).pow 2).continuousOn
    · exact (((continuous_fst.comp continuous_snd).add
        (((continuous_fst.comp continuous_snd).sub (continuous_snd.comp continuous_snd)).max continuous_const)).pow 2).continuousOn
    · intro x hx
      have h1 : (0 : ℝ) < x.2.1 := hx
      have h2 : (0 : ℝ) ≤ max (x.2.1 - x.2.2) 0 := le_max_right _ _
      positivity
    · exact (continuous_const.min (continuous_const.mul continuous_fst)).continuousOn

/-- C72: the capacitance to the bulk is continuous everywhere -/
theorem cgb_continuous (p : Par ℝ) (hp : 0 < p.phi) (r : Bool) (vdsat vds vbs : ℝ) : Continuous fun v => p.cgb ⟨r, v, vdsat, vds, vbs⟩ := by
  by_cases hc : p.cmodel = 0
  · have : (fun v => p.cgb ⟨r, v, vdsat, vds, vbs⟩) = fun _ => p.cgbo := by funext v; unfold Par.cgb; simp [hc]
    rw [this]; exact continuous_const
  · have : (fun v => p.cgb ⟨r, v, vdsat, vds, vbs⟩) = fun v => p.cgbo + p.cgate * max 0 (min 1 (-v / p.phi)) := by
      funext v
      unfold Par.cgb
      simp only [ne_eq, hc, not_false_eq_true, if_true]
      split
      · rename_i h1
        have : 1 ≤ -v / p.phi := by rw [le_div_iff₀ hp]; linarith
        rw [min_eq_left this, max_eq_right zero_le_one, mul_one]
      · rename_i h1
        have : -v / p.phi ≤ 1 := by rw [div_le_one hp]; linarith
        rw [min_eq_right this]
        split
        · rename_i h2
          rw [max_eq_right (div_nonneg (by linarith) hp.le)]; ring
        · rename_i h2
          rw [max_eq_left (div_nonpos_of_nonpos_of_nonneg (by linarith) hp.le)]; ring
    rw [this]
    exact continuous_const.add (continuous_const.mul (continuous_const.max (continuous_const.min ((continuous_neg).div_const _))))

/-! ## charge -/
section
variable {F : Type _} [Field F] [LinearOrder F] [IsStrictOrderedRing F]

/-- C72: while the capacitance stays constant, so does the relation of charge and voltage, over any number of steps -/
theorem charges_const (c : F) : ∀ (l : List F) (x q : F), charges (x, q, c) (l.map fun y => (y, c)) = q + c * (l.getLastD x - x)
  | [], x, q => by simp [charges]
  | y :: l, x, q => by
    rw [List.map_cons, charges, charges_const c l]
    simp only [charge, List.getLastD_cons]
    ring

/-- C72: a capacitance that is linear in its own voltage alone gives just its charge, whatever the steps -/
theorem charges_linear (a k : F) : ∀ (l : List F) (x q : F), charges (x, q, a + k * x) (l.map fun y => (y, a + k * y)) =
    q + (a * l.getLastD x + k / 2 * l.getLastD x ^ 2) - (a * x + k / 2 * x ^ 2)
  | [], x, q => by simp [charges]
  | y :: l, x, q => by
    rw [List.map_cons, charges, charges_linear a k l]
    simp only [charge, List.getLastD_cons]
    ring

/-- C72, violated: around a cycle of gate and drain voltages the charge of the gate capacitance to the source does not return, though all
voltages do.  Level 1, `cmodel` 3, gate 1, 3, 3, 1, 1, drain 0, 0, 5, 5, 0. -/
theorem charge_lost :
    let p : Par ℚ := ⟨3, 1, 1, 0, 0, 0⟩
    let pt (vg vd : ℚ) : ℚ × ℚ := (vg, p.cgs (bias 0 vg vd 0))
    charges (1, 0, p.cgs (bias 0 1 0 0)) [pt 3 0, pt 3 5, pt 1 5, pt 1 0] = -(1 / 3) := by
  decide +kernel

end
end Gnucap.Meyer
