import Mathlib.Topology.Algebra.Order.Floor
import Mathlib.Analysis.SpecialFunctions.Trigonometric.Basic
import Verif.GenModel
import Verif.OptProps
import Verif.OptNames
import Verif.NumProps
import Verif.SpiceProps

/-!
# The generator (C85)

The pulse is given here by one formula: a trapezoid of height 1, cut off below and above.
-/
namespace Gnucap.Gen
open Gnucap.Scan Gnucap.Num Gnucap.Spice

/-! ## What is meant -/

/-- the trapezoid: up from 0 in `rise`, on for `width`, down in `fall` -/
noncomputable def trap (rise width fall s : ℝ) : ℝ := max 0 (min 1 (min (s / rise) ((rise + width + fall - s) / fall)))

/-- up in `rise`, and on for ever -/
noncomputable def ramp (rise s : ℝ) : ℝ := min 1 (s / rise)

/-- from one level to the other -/
def between (a b x : ℝ) : ℝ := a + (b - a) * x

/-- the time within the period: `s` behind a start of the pulse -/
def Within (g : Var → ℝ) (t s : ℝ) : Prop :=
  (g .period = 0 ∧ s = t - g .delay) ∨ (∃ k : ℕ, 0 ≤ s ∧ s < g .period ∧ t = g .delay + k * g .period + s)

/-- what the command leaves (`command_nonneg`) -/
structure Ok (g : Var → ℝ) : Prop where
  freq : 0 ≤ g .freq
  rise : 0 ≤ g .rise
  fall : 0 ≤ g .fall
  delay : 0 ≤ g .delay
  width : 0 ≤ g .width
  period : 0 ≤ g .period

/-! ## The waveform -/

theorem fmod_of (p s : ℝ) (k : ℕ) (h0 : 0 ≤ s) (h1 : s < p) : fmod (k * p + s) p = s := by
  have hp : 0 < p := by linarith
  have : ⌊(k * p + s) / p⌋ = (k : ℤ) := by
    rw [Int.floor_eq_iff]
    constructor
    · rw [le_div_iff₀ hp]; push_cast; linarith
    · rw [div_lt_iff₀ hp]; push_cast; linarith
  unfold fmod
  rw [this]
  push_cast
  ring

theorem fmod_range (p x : ℝ) (hp : 0 < p) : 0 ≤ fmod x p ∧ fmod x p < p := by
  have h1 := Int.floor_le (x / p)
  have h2 := Int.lt_floor_add_one (x / p)
  rw [le_div_iff₀ hp] at h1
  rw [div_lt_iff₀ hp] at h2
  unfold fmod
  constructor <;> nlinarith

theorem fmod_fract (p x : ℝ) (hp : 0 < p) : fmod x p = p * Int.fract (x / p) := by
  unfold fmod
  rw [Int.fract]
  field_simp

/-- the time within the period, as the program has it -/
noncomputable def loc (g : Var → ℝ) (t : ℝ) : ℝ := if 0 < g .period then fmod (t - g .delay) (g .period) else t - g .delay

theorem within_loc (g : Var → ℝ) (hg : Ok g) (t s : ℝ) (h : Within g t s) : loc g t = s := by
  unfold loc
  rcases h with ⟨h, rfl⟩ | ⟨k, h1, h2, rfl⟩
  · rw [if_neg (by linarith)]
  · rw [if_pos (by linarith), show g .delay + k * g .period + s - g .delay = k * g .period + s from by ring, fmod_of _ _ _ h1 h2]

theorem loc_within (g : Var → ℝ) (hg : Ok g) (t : ℝ) (ht : g .delay ≤ t) : Within g t (loc g t) := by
  rcases hg.period.lt_or_eq with h | h
  · refine .inr ⟨⌊(t - g .delay) / g .period⌋.toNat, ?_, ?_, ?_⟩
    · unfold loc; rw [if_pos h]; exact (fmod_range _ _ h).1
    · unfold loc; rw [if_pos h]; exact (fmod_range _ _ h).2
    · unfold loc; rw [if_pos h]
      have h0 : 0 ≤ ⌊(t - g .delay) / g .period⌋ := Int.floor_nonneg.mpr (div_nonneg (by linarith) h.le)
      have : ((⌊(t - g .delay) / g .period⌋.toNat : ℕ) : ℝ) = (⌊(t - g .delay) / g .period⌋ : ℝ) := by
        rw [← Int.cast_natCast, Int.toNat_of_nonneg h0]
      rw [this]
      unfold fmod
      ring
  · refine .inl ⟨h.symm, ?_⟩
    unfold loc
    rw [if_neg (by linarith)]

/-- the level behind the first rise -/
noncomputable def level (g : Var → ℝ) (s : ℝ) : Option ℝ :=
  if s ≤ g .rise then (quot s (g .rise)).map fun q => (g .maxv - g .minv) * q + g .minv
  else if g .width = 0 ∨ s - g .rise ≤ g .width then some (g .maxv)
  else if s - g .rise - g .width ≤ g .fall then (quot (s - g .rise - g .width) (g .fall)).map fun q => (g .minv - g .maxv) * q + g .maxv
  else some (g .minv)

theorem gen_late (g : Var → ℝ) (hg : Ok g) (t : ℝ) (ht : g .delay + g .rise < t) :
    gen g t = (level g (loc g t)).map fun l => l * carrier g t + g .offset := by
  have := hg.rise
  unfold gen
  rw [if_neg (by linarith)]
  simp only
  rw [if_neg (by linarith)]
  rfl

/-- **C85, before**: until the delay is over the generator has its initial value. -/
theorem before (g : Var → ℝ) (t : ℝ) (h : t ≤ g .delay) : gen g t = some (g .init) := by
  unfold gen
  rw [if_pos h]

example : gen (fun v => (initial v : ℝ)) 0 = some 0 := by
  rw [before _ _ (by simp [initial])]
  simp [initial]

/-- **C85, the first rise**: a straight line from the initial value to the top of the pulse, as far as the sine lets it be one. -/
theorem first_rise (g : Var → ℝ) (hg : Ok g) (t : ℝ) (h1 : g .delay < t) (h2 : t ≤ g .delay + g .rise) (hp : g .period = 0 ∨ g .rise < g .period) :
    gen g t = some (between (g .init) (g .maxv * carrier g t + g .offset) ((t - g .delay) / g .rise)) := by
  have hr : g .rise ≠ 0 := by intro h; linarith
  have hl : loc g t = t - g .delay := by
    apply within_loc g hg
    rcases hp with hp | hp
    · exact .inl ⟨hp, rfl⟩
    · exact .inr ⟨0, by linarith, by linarith, by push_cast; ring⟩
  unfold loc at hl
  unfold gen quot
  rw [if_neg (by linarith)]
  simp only
  rw [if_pos h2, hl, if_neg hr]
  simp only [Option.map_some, between]
  congr 1
  ring

/-- **C85, the pulse**: behind the first rise the generator is the offset and the amplitude times a level that goes from the minimum to
the maximum and back as the trapezoid does, in every period anew. -/
theorem shape (g : Var → ℝ) (hg : Ok g) (t s : ℝ) (ht : g .delay + g .rise < t) (hr : 0 < g .rise) (hf : 0 < g .fall) (hw : 0 < g .width) (hs : Within g t s) :
    gen g t = some (between (g .minv) (g .maxv) (trap (g .rise) (g .width) (g .fall) s) * carrier g t + g .offset) := by
  have hl := within_loc g hg t s hs
  have hs0 : 0 ≤ s := by
    rcases hs with ⟨_, rfl⟩ | ⟨_, h, _⟩
    · linarith
    · exact h
  unfold loc at hl
  unfold gen quot
  rw [if_neg (by linarith)]
  simp only
  rw [if_neg (by linarith), hl]
  unfold trap between
  have hup : s / g .rise * g .rise = s := by field_simp
  have hdn : (g .rise + g .width + g .fall - s) / g .fall * g .fall = g .rise + g .width + g .fall - s := by field_simp
  by_cases c1 : s ≤ g .rise
  · rw [if_pos c1, if_neg hr.ne']
    simp only [Option.map_some]
    have a1 : s / g .rise ≤ 1 := by rw [div_le_one hr]; exact c1
    have a2 : 1 ≤ (g .rise + g .width + g .fall - s) / g .fall := by rw [le_div_iff₀ hf]; linarith
    have a3 : 0 ≤ s / g .rise := div_nonneg hs0 hr.le
    rw [min_eq_left (by linarith : s / g .rise ≤ _), min_eq_right a1, max_eq_right a3]
    congr 2
    ring
  · rw [if_neg c1]
    have a1 : 1 ≤ s / g .rise := by rw [le_div_iff₀ hr]; linarith
    by_cases c2 : s - g .rise ≤ g .width
    · rw [if_pos (.inr c2)]
      simp only [Option.map_some]
      have a2 : 1 ≤ (g .rise + g .width + g .fall - s) / g .fall := by rw [le_div_iff₀ hf]; linarith
      rw [min_eq_left (le_min a1 a2), max_eq_right zero_le_one]
      congr 2
      ring
    · rw [if_neg (by push Not; exact ⟨hw.ne', by linarith⟩)]
      have a2 : (g .rise + g .width + g .fall - s) / g .fall ≤ 1 := by rw [div_le_one hf]; linarith
      rw [min_eq_right (a2.trans a1), min_eq_right a2]
      by_cases c3 : s - g .rise - g .width ≤ g .fall
      · rw [if_pos c3, if_neg hf.ne']
        simp only [Option.map_some]
        have a3 : 0 ≤ (g .rise + g .width + g .fall - s) / g .fall := div_nonneg (by linarith) hf.le
        rw [max_eq_right a3]
        congr 2
        field_simp
        ring
      · rw [if_neg c3]
        simp only [Option.map_some]
        have a3 : (g .rise + g .width + g .fall - s) / g .fall ≤ 0 := div_nonpos_of_nonpos_of_nonneg (by linarith) hf.le
        rw [max_eq_left a3]
        congr 2
        ring

/-- **C85, no width**: the pulse stays on to the end of its period, for ever without one. -/
theorem shape_on (g : Var → ℝ) (hg : Ok g) (t s : ℝ) (ht : g .delay + g .rise < t) (hr : 0 < g .rise) (hw : g .width = 0) (hs : Within g t s) :
    gen g t = some (between (g .minv) (g .maxv) (ramp (g .rise) s) * carrier g t + g .offset) := by
  have hl := within_loc g hg t s hs
  unfold loc at hl
  unfold gen quot
  rw [if_neg (by linarith)]
  simp only
  rw [if_neg (by linarith), hl]
  unfold ramp between
  by_cases c1 : s ≤ g .rise
  · rw [if_pos c1, if_neg hr.ne']
    simp only [Option.map_some]
    have a1 : s / g .rise ≤ 1 := by rw [div_le_one hr]; exact c1
    rw [min_eq_right a1]
    congr 2
    ring
  · rw [if_neg c1, if_pos (.inl hw)]
    simp only [Option.map_some]
    have a1 : 1 ≤ s / g .rise := by rw [le_div_iff₀ hr]; linarith
    rw [min_eq_left a1]
    congr 2
    ring

/-- **C85, periods**: behind the first rise the waveform repeats, if the sine does. -/
theorem periodic (g : Var → ℝ) (hg : Ok g) (t : ℝ) (ht : g .delay + g .rise < t) (hp : 0 < g .period)
    (hf : ∃ n : ℤ, g .freq * g .period = n) : gen g (t + g .period) = gen g t := by
  have h0 := hg.rise
  have hc : carrier g (t + g .period) = carrier g t := by
    obtain ⟨n, hn⟩ := hf
    unfold carrier
    split
    · rfl
    · have : 2 * Real.pi * g .freq * (t + g .period - g .delay) + g .phaz * (Real.pi / 180) =
          2 * Real.pi * g .freq * (t - g .delay) + g .phaz * (Real.pi / 180) + n * (2 * Real.pi) := by
        rw [← hn]; ring
      rw [this, Real.sin_add_int_mul_two_pi]
  have hl : fmod (t + g .period - g .delay) (g .period) = fmod (t - g .delay) (g .period) := by
    rw [fmod_fract _ _ hp, fmod_fract _ _ hp]
    have : (t + g .period - g .delay) / g .period = (t - g .delay) / g .period + 1 := by field_simp; ring
    rw [this, Int.fract_add_one]
  rw [gen_late g hg _ (by linarith), gen_late g hg t ht, hc]
  unfold loc
  rw [if_pos hp, if_pos hp, hl]

/-- **C85, limits**: behind the first rise the level is between the minimum and the maximum, whatever the times are. -/
theorem bounded (g : Var → ℝ) (hg : Ok g) (t y : ℝ) (ht : g .delay + g .rise < t) (h : gen g t = some y) :
    (∃ l, min (g .minv) (g .maxv) ≤ l ∧ l ≤ max (g .minv) (g .maxv) ∧ y = l * carrier g t + g .offset) ∧
    |y - g .offset| ≤ max |g .minv| |g .maxv| * |g .ampl| := by
  have key : ∃ l, min (g .minv) (g .maxv) ≤ l ∧ l ≤ max (g .minv) (g .maxv) ∧ y = l * carrier g t + g .offset := by
    have hl0 : 0 ≤ loc g t := by
      have := loc_within g hg t (by linarith [hg.rise])
      rcases this with ⟨_, h⟩ | ⟨_, h, _⟩
      · rw [h]; linarith [hg.rise]
      · exact h
    have conv : ∀ a b q : ℝ, 0 ≤ q → q ≤ 1 → min a b ≤ (b - a) * q + a ∧ (b - a) * q + a ≤ max a b := by
      intro a b q h0 h1
      rcases le_total a b with hab | hab
      · rw [min_eq_left hab, max_eq_right hab]
        constructor <;> nlinarith
      · rw [min_eq_right hab, max_eq_left hab]
        constructor <;> nlinarith
    rw [gen_late g hg t ht] at h
    obtain ⟨l, h', rfl⟩ := Option.map_eq_some_iff.mp h
    clear h
    rename' h' => h
    refine ⟨l, ?_⟩
    rw [← and_assoc]
    refine ⟨?_, rfl⟩
    unfold level quot at h
    split at h
    · rename_i c1
      split at h
      · cases h
      · rename_i c2
        have hr : 0 < g .rise := lt_of_le_of_ne hg.rise (Ne.symm c2)
        simp only [Option.map_some, Option.some.injEq] at h
        rw [← h]
        exact conv (g .minv) (g .maxv) _ (div_nonneg hl0 hr.le) ((div_le_one hr).mpr c1)
    · split at h
      · cases h
        exact ⟨min_le_right _ _, le_max_right _ _⟩
      · rename_i c2
        push Not at c2
        split at h
        · rename_i c3
          split at h
          · cases h
          · rename_i c4
            have hf : 0 < g .fall := lt_of_le_of_ne hg.fall (Ne.symm c4)
            simp only [Option.map_some, Option.some.injEq] at h
            rw [← h, min_comm, max_comm]
            exact conv (g .maxv) (g .minv) _ (div_nonneg (by linarith [c2.2]) hf.le) ((div_le_one hf).mpr c3)
        · cases h
          exact ⟨min_le_left _ _, le_max_left _ _⟩
  refine ⟨key, ?_⟩
  obtain ⟨l, h1, h2, rfl⟩ := key
  have hc : |carrier g t| ≤ |g .ampl| := by
    unfold carrier
    split
    · exact le_refl _
    · rw [abs_mul]
      have := Real.abs_sin_le_one (2 * Real.pi * g .freq * (t - g .delay) + g .phaz * (Real.pi / 180))
      nlinarith [abs_nonneg (g .ampl)]
  have hl : |l| ≤ max |g .minv| |g .maxv| := by
    rw [abs_le]
    constructor
    · rcases min_le_iff.mp h1 with h | h
      · have := neg_abs_le (g .minv); have := le_max_left |g .minv| |g .maxv|; linarith
      · have := neg_abs_le (g .maxv); have := le_max_right |g .minv| |g .maxv|; linarith
    · rcases le_max_iff.mp h2 with h | h
      · have := le_abs_self (g .minv); have := le_max_left |g .minv| |g .maxv|; linarith
      · have := le_abs_self (g .maxv); have := le_max_right |g .minv| |g .maxv|; linarith
  rw [add_sub_cancel_right, abs_mul]
  exact mul_le_mul hl hc (abs_nonneg _) ((abs_nonneg _).trans hl)

/-- **C85, always a number, except**: without a rise time the generator divides 0 by 0 at the beginning of every period but the first,
and at no other time. -/
theorem no_number (g : Var → ℝ) (hg : Ok g) (t : ℝ) :
    gen g t = none ↔ g .rise = 0 ∧ 0 < g .period ∧ ∃ k : ℕ, 0 < k ∧ t = g .delay + k * g .period := by
  by_cases h1 : t ≤ g .delay
  · rw [before g t h1]
    simp only [reduceCtorEq, false_iff]
    rintro ⟨-, h2, k, h3, rfl⟩
    have : (0 : ℝ) < k := by exact_mod_cast h3
    nlinarith
  · by_cases h2 : t ≤ g .delay + g .rise
    · have hr : g .rise ≠ 0 := by intro h; linarith
      unfold gen quot
      rw [if_neg h1]
      simp only
      rw [if_pos h2, if_neg hr]
      simp [hr]
    · have hl := loc_within g hg t (by linarith)
      rw [gen_late g hg t (by linarith)]
      generalize hx : loc g t = x at hl
      rw [Option.map_eq_none_iff]
      unfold level
      have hx0 : 0 ≤ x := by
        rcases hl with ⟨_, h⟩ | ⟨_, h, _⟩
        · rw [h]; linarith
        · exact h
      by_cases c1 : x ≤ g .rise
      · rw [if_pos c1, Option.map_eq_none_iff]
        unfold quot
        by_cases c2 : g .rise = 0
        · rw [if_pos c2]
          simp only [true_iff]
          have hx1 : x = 0 := le_antisymm (by linarith) hx0
          rcases hl with ⟨_, h⟩ | ⟨k, _, h3, h4⟩
          · rw [hx1] at h; exact absurd (by linarith : t ≤ g .delay) h1
          · refine ⟨c2, by linarith, k, ?_, by rw [h4, hx1, add_zero]⟩
            rcases Nat.eq_zero_or_pos k with rfl | hk
            · exfalso; rw [hx1] at h4; push_cast at h4; linarith
            · exact hk
        · rw [if_neg c2]
          simp [c2]
      · rw [if_neg c1]
        have hno : ¬ (g .rise = 0 ∧ 0 < g .period ∧ ∃ k : ℕ, 0 < k ∧ t = g .delay + k * g .period) := by
          rintro ⟨a1, a2, k, -, a3⟩
          have : loc g t = 0 := within_loc g hg t 0 (.inr ⟨k, le_refl _, a2, by rw [a3, add_zero]⟩)
          rw [hx] at this
          linarith
        rw [iff_false_right hno]
        split
        · simp
        · rename_i c2
          push Not at c2
          split
          · rename_i c3
            have hf : g .fall ≠ 0 := by intro h; linarith [c2.2]
            unfold quot
            rw [if_neg hf]
            simp
          · simp

/-- **C85, no jumps**: if there are a rise and a fall time and the pulse fits into the period, the waveform is continuous everywhere. -/
theorem continuous_wave (g : Var → ℝ) (hg : Ok g) (hr : 0 < g .rise) (hf : 0 < g .fall) (hw : 0 < g .width)
    (hp : g .period = 0 ∨ g .rise + g .width + g .fall ≤ g .period) : ∃ f : ℝ → ℝ, Continuous f ∧ ∀ t, gen g t = some (f t) := by
  have hcar : Continuous (carrier g) := by
    unfold carrier
    split
    · exact continuous_const
    · exact continuous_const.mul (Real.continuous_sin.comp (by fun_prop))
  have htrap : Continuous (trap (g .rise) (g .width) (g .fall)) := by
    unfold trap
    fun_prop
  have hloc : Continuous fun t => trap (g .rise) (g .width) (g .fall) (loc g t) := by
    rcases hp with hp | hp
    · have : ∀ t, loc g t = t - g .delay := fun t => by unfold loc; rw [if_neg (by linarith)]
      simp only [this]
      fun_prop
    · have hpp : 0 < g .period := by linarith
      have : ∀ t, loc g t = g .period * Int.fract ((t - g .delay) / g .period) := fun t => by
        unfold loc; rw [if_pos hpp, fmod_fract _ _ hpp]
      simp only [this]
      have h01 : trap (g .rise) (g .width) (g .fall) (g .period * 0) = trap (g .rise) (g .width) (g .fall) (g .period * 1) := by
        unfold trap
        have a1 : (g .rise + g .width + g .fall - g .period) / g .fall ≤ 0 := div_nonpos_of_nonpos_of_nonneg (by linarith) hf.le
        rw [mul_zero, mul_one, zero_div]
        have b1 : 0 ≤ (g .rise + g .width + g .fall - 0) / g .fall := div_nonneg (by linarith) hf.le
        rw [min_eq_left b1, min_eq_right zero_le_one, max_self, max_eq_left]
        exact (min_le_right _ _).trans ((min_le_right _ _).trans a1)
      have hc : Continuous ((fun u => trap (g .rise) (g .width) (g .fall) (g .period * u)) ∘ Int.fract) :=
        ContinuousOn.comp_fract'' (by fun_prop) h01
      have hd : Continuous fun t => (t - g .delay) / g .period := by fun_prop
      exact hc.comp hd
  refine ⟨fun t => if t ≤ g .delay then g .init else if t ≤ g .delay + g .rise then
    between (g .init) (g .maxv * carrier g t + g .offset) ((t - g .delay) / g .rise) else
    between (g .minv) (g .maxv) (trap (g .rise) (g .width) (g .fall) (loc g t)) * carrier g t + g .offset, ?_, ?_⟩
  · refine Continuous.if_le continuous_const (Continuous.if_le ?_ ?_ continuous_id continuous_const ?_) continuous_id continuous_const ?_
    · unfold between; fun_prop
    · unfold between; fun_prop
    · intro t ht
      have hl : loc g t = g .rise := by
        apply within_loc g hg
        rcases hp with hp | hp
        · exact .inl ⟨hp, by linarith⟩
        · exact .inr ⟨0, hr.le, by linarith, by push_cast; linarith⟩
      have e1 : (t - g .delay) / g .rise = 1 := by rw [ht]; field_simp; ring
      have e2 : trap (g .rise) (g .width) (g .fall) (g .rise) = 1 := by
        unfold trap
        have a1 : g .rise / g .rise = 1 := div_self hr.ne'
        have a2 : 1 ≤ (g .rise + g .width + g .fall - g .rise) / g .fall := by rw [le_div_iff₀ hf]; linarith
        rw [a1, min_eq_left a2, min_self, max_eq_right zero_le_one]
      rw [hl, e1, e2]
      unfold between
      ring
    · intro t ht
      rw [if_pos (by linarith), ht, sub_self, zero_div]
      unfold between
      ring
  · intro t
    simp only
    split
    · rename_i h; exact before g t h
    · rename_i h1
      split
      · rename_i h2
        exact first_rise g hg t (by linarith) h2 (hp.imp_right (by intro h; linarith))
      · rename_i h2
        exact shape g hg t _ (by linarith) hr hf hw (loc_within g hg t (by linarith))

/-! ## Where the waveform fails -/

/-- **C85 fails without a width in a period**: the pulse is on up to the end of the period, and down at once at the beginning of the next. -/
theorem on_drops (g : Var → ℝ) (hg : Ok g) (hr : 0 < g .rise) (hw : g .width = 0) (hp : g .rise < g .period) (k : ℕ) :
    (∀ s, g .rise < s → s < g .period → gen g (g .delay + k * g .period + s) =
      some (g .maxv * carrier g (g .delay + k * g .period + s) + g .offset)) ∧
    gen g (g .delay + (k + 1) * g .period) = some (g .minv * carrier g (g .delay + (k + 1) * g .period) + g .offset) := by
  have hk : (0 : ℝ) ≤ k := Nat.cast_nonneg k
  constructor
  · intro s h1 h2
    rw [shape_on g hg _ s (by nlinarith) hr hw (.inr ⟨k, by linarith, h2, rfl⟩)]
    have : 1 ≤ s / g .rise := by rw [le_div_iff₀ hr]; linarith
    unfold ramp between
    rw [min_eq_left this]
    congr 2
    ring
  · rw [shape_on g hg _ 0 (by nlinarith) hr hw (.inr ⟨k + 1, le_refl _, by linarith, by push_cast; ring⟩)]
    unfold ramp between
    rw [zero_div, min_eq_right zero_le_one]
    congr 2
    ring

/-- **C85 fails for a rise longer than the period**: the first rise falls back to the initial value at the end of every period, and the
maximum is not reached later either. -/
theorem long_rise (g : Var → ℝ) (hg : Ok g) (hp : 0 < g .period) (hr : g .period < g .rise) :
    gen g (g .delay + g .period) = some (g .init) ∧
    ∀ t y, g .minv < g .maxv → g .freq = 0 → 0 < g .ampl → g .delay + g .rise < t → gen g t = some y → y < g .maxv * g .ampl + g .offset := by
  constructor
  · have hl : loc g (g .delay + g .period) = 0 := within_loc g hg _ 0 (.inr ⟨1, le_refl _, hp, by push_cast; ring⟩)
    unfold loc at hl
    unfold gen quot
    rw [if_neg (by linarith)]
    simp only
    rw [if_pos (by linarith), hl, if_neg (by linarith)]
    simp
  · intro t y hm hf ha ht h
    have hw := loc_within g hg t (by linarith)
    have hlt : 0 ≤ loc g t ∧ loc g t < g .period := by
      rcases hw with ⟨h, _⟩ | ⟨_, h1, h2, _⟩
      · linarith
      · exact ⟨h1, h2⟩
    unfold gen quot at h
    rw [if_neg (by linarith)] at h
    simp only at h
    rw [if_neg (by linarith), show (if 0 < g .period then fmod (t - g .delay) (g .period) else t - g .delay) = loc g t from rfl,
      if_pos (by linarith), if_neg (by linarith)] at h
    simp only [Option.map_some, Option.some.injEq, carrier, if_pos hf] at h
    rw [← h]
    have hq : loc g t / g .rise < 1 := by rw [div_lt_one (by linarith)]; linarith
    have : (g .maxv - g .minv) * (loc g t / g .rise) + g .minv < g .maxv := by nlinarith
    nlinarith

/-! ## The command -/

/-- the names of the variables: what must be written, what may be written behind it, and whether the sign is dropped -/
def names : List (List Char × List Char × Var × Bool) := [
  (['f'], ['r', 'e', 'q', 'u', 'e', 'n', 'c', 'y'], .freq, true),
  (['a'], ['m', 'p', 'l', 'i', 't', 'u', 'd', 'e'], .ampl, false),
  (['p'], ['h', 'a', 's', 'e'], .phaz, false),
  (['m', 'a'], ['x'], .maxv, false),
  (['m', 'i'], ['n'], .minv, false),
  (['o'], ['f', 'f', 's', 'e', 't'], .offset, false),
  (['i'], ['n', 'i', 't', 'i', 'a', 'l'], .init, false),
  (['r'], ['i', 's', 'e'], .rise, true),
  (['f', 'a'], ['l', 'l'], .fall, true),
  (['d'], ['e', 'l', 'a', 'y'], .delay, true),
  (['w'], ['i', 'd', 't', 'h'], .width, true),
  (['p', 'e'], ['r', 'i', 'o', 'd'], .period, true)]

/-- the ways to write a name -/
def spelled (e : List Char × List Char × Var × Bool) : List (List Char) := e.2.1.inits.map (e.1 ++ ·)

/-- what a name means -/
def meant (w : List Char) : Option (Var × Bool) := (names.find? fun e => (spelled e).contains w).map (·.2.2)

/-- `name=number` or `name number` -/
structure Item where
  name : List Char
  eq : Bool
  num : Numeral

def Item.text (i : Item) : List Char := i.name ++ (if i.eq then '=' else ' ') :: i.num.text

/-- items with blanks between -/
def lineText : List Item → List Char
  | [] => []
  | [i] => i.text
  | i :: j :: r => i.text ++ ' ' :: lineText (j :: r)

/-- what an item does -/
def Item.does (u : Units) (g : Var → ℚ) (i : Item) : Var → ℚ :=
  match meant i.name with
  | some (v, pos) => fun w => if w = v then (if pos then |i.num.value u| else i.num.value u) else g w
  | none => g

structure Item.Good (i : Item) : Prop where
  known : meant i.name ≠ none
  wf : i.num.Wf

theorem table_sound : (table.all fun e => Opt.sound (pattern e.1)) = true := by decide +kernel

/-- all ways to write all names -/
def words : List (List Char) := names.flatMap spelled

/-- the first entry that does not fail at the word, with what is left of its pattern -/
def firstFor (ci : Bool) (w : List Char) : Option (List Char × Var × Bool) :=
  table.find? fun e => !Opt.fails ci (Opt.segsOf none (pattern e.1)) w

def picks (ci : Bool) (w : List Char) : Bool :=
  match firstFor ci w, meant w with
  | some e, some m => decide (e.2 = m) && decide (Opt.reach ci (Opt.segsOf none (pattern e.1)) w = some [.delim, .opt ['=']])
  | _, _ => false

theorem words_checked : (words.all fun w => Opt.isWord w && picks false w && picks true w) = true := by decide +kernel

theorem meant_words (w : List Char) (h : meant w ≠ none) : w ∈ words := by
  unfold meant at h
  rcases hf : names.find? (fun e => (spelled e).contains w) with _ | e
  · rw [hf] at h; exact absurd rfl h
  · obtain ⟨h1, -⟩ := List.find?_eq_some_iff_append.mp hf
    exact List.mem_flatMap.mpr ⟨e, List.mem_of_find?_eq_some hf, List.contains_iff_mem.mp h1⟩

/-- behind a name: blanks and an equal sign -/
def behind (rest : List Char) : List Char := optDrop false ['='] (skipbl rest)

theorem tryAll_misses (u : Units) (ci : Bool) (g : Var → ℚ) (w rest : List Char) (hw : Opt.Word w) (hr : isTerm rest = true)
    (post : List (List Char × Var × Bool)) : ∀ (pre : List (List Char × Var × Bool)),
      (∀ e ∈ pre, e ∈ table ∧ Opt.fails ci (Opt.segsOf none (pattern e.1)) w = true) →
      tryAll u ci g (w ++ rest) (pre ++ post) = tryAll u ci g (w ++ rest) post
  | [], _ => rfl
  | e :: pre, h => by
    obtain ⟨h1, h2⟩ := h e (by simp)
    have s1 := List.all_eq_true.mp table_sound e h1
    have hn : ∀ c ∈ w, isTermChar c = false := fun c hc => (hw.2 c hc).2
    have hu : umatch ci (pattern e.1) (w ++ rest) = .fail := by
      rw [Opt.umatch_sound _ _ _ s1, hw.skipbl, Opt.fails_spec ci rest hr _ w (Opt.sound_clean s1) hn h2]
    obtain ⟨key, v, pos⟩ := e
    rw [List.cons_append, tryAll, hu]
    exact tryAll_misses u ci g w rest hw hr post pre (fun x hx => h x (by simp [hx]))

theorem tryAll_word (u : Units) (ci : Bool) (g : Var → ℚ) (w rest : List Char) (v : Var) (pos : Bool) (hm : meant w = some (v, pos)) (hr : isTerm rest = true) :
    tryAll u ci g (w ++ rest) table = (Opt.number u (skipcom (behind rest))).map fun x =>
      (Function.update g v (if pos then |x.1| else x.1), x.2) := by
  have hc := List.all_eq_true.mp words_checked w (meant_words w (by rw [hm]; simp))
  simp only [Bool.and_eq_true] at hc
  have hp : picks ci w = true := by cases ci <;> simp [hc]
  have hw := Opt.word_of hc.1.1
  unfold picks at hp
  rcases hf : firstFor ci w with _ | e
  · rw [hf] at hp; simp at hp
  rw [hf, hm] at hp
  simp only [Bool.and_eq_true, decide_eq_true_eq] at hp
  obtain ⟨h1, h2⟩ := hp
  obtain ⟨_, pre, post, ht, hpre⟩ := List.find?_eq_some_iff_append.mp hf
  have he : e ∈ table := by rw [ht]; simp
  have s1 := List.all_eq_true.mp table_sound e he
  have e1 : tryAll u ci g (w ++ rest) table = tryAll u ci g (w ++ rest) (pre ++ e :: post) := by rw [← ht]
  rw [e1, tryAll_misses u ci g w rest hw hr (e :: post) pre (by
    intro x hx
    exact ⟨by rw [ht]; simp [hx], by simpa using hpre x hx⟩)]
  have hu : umatch ci (pattern e.1) (w ++ rest) = .ok (skipcom (behind rest)) := by
    rw [Opt.umatch_sound _ _ _ s1, hw.skipbl, Opt.reach_spec ci rest hr (Opt.segsOf none (pattern e.1)) w _ (Opt.sound_clean s1) h2]
    simp [segMatch, hr, Opt.optDrop_eq ci, behind]
  obtain ⟨key, v', pos'⟩ := e
  cases h1
  rw [tryAll, hu]

theorem numeral_head (n : Numeral) (hn : n.Wf) (s : List Char) : ∃ c r, n.text ++ s = c :: r ∧ isGraph c = true ∧ c ≠ ',' ∧ c ≠ '=' := by
  obtain ⟨c, r, e, h⟩ := n.head hn s
  refine ⟨c, r, e, ?_, ?_, ?_⟩
  · simp only [isFloat, Bool.or_eq_true, beq_iff_eq] at h
    rcases h with ((h | rfl) | rfl) | rfl
    · simp only [isDigit, Bool.and_eq_true, decide_eq_true_eq] at h
      simp only [isGraph, Bool.and_eq_true, decide_eq_true_eq]
      omega
    all_goals decide
  · rintro rfl
    exact absurd h (by decide)
  · rintro rfl
    exact absurd h (by decide)

theorem tryAll_item (u : Units) (ci : Bool) (g : Var → ℚ) (i : Item) (hi : i.Good) (s : List Char) (hs : Stops s) :
    tryAll u ci g (i.text ++ s) table = some (i.does u g, skipcom s) := by
  obtain ⟨c, r, e, h1, h2, h3⟩ := numeral_head i.num hi.wf s
  rcases hm : meant i.name with _ | ⟨v, pos⟩
  · exact absurd hm hi.known
  have hb : ∀ sep, sep = '=' ∨ sep = ' ' → behind (sep :: (i.num.text ++ s)) = i.num.text ++ s := by
    intro sep hsep
    unfold behind
    rcases hsep with rfl | rfl
    · rw [skipbl_cons _ (by decide)]
      simp [optDrop, eqc]
    · have : skipbl (' ' :: (i.num.text ++ s)) = skipbl (i.num.text ++ s) := by rw [skipbl]; simp [isGraph]
      rw [this, e, skipbl_cons _ h1]
      simp only [optDrop]
      rw [if_neg]
      simpa [eqc] using h3
  have ht : ∀ sep, sep = '=' ∨ sep = ' ' → isTerm (sep :: (i.num.text ++ s)) = true := by
    rintro sep (rfl | rfl) <;> rfl
  have hsep : (if i.eq then '=' else ' ') = '=' ∨ (if i.eq then '=' else ' ') = ' ' := by cases i.eq <;> simp
  have ho := tryAll_word u ci g i.name ((if i.eq then '=' else ' ') :: (i.num.text ++ s)) v pos hm (ht _ hsep)
  have hx : i.text ++ s = i.name ++ (if i.eq then '=' else ' ') :: (i.num.text ++ s) := by simp [Item.text]
  have hn : Next (i.num.text ++ s) := .inr ⟨c, r, e, h1, h2⟩
  have hnum : Opt.number u (i.num.text ++ s) = some (i.num.value u, skipcom s) := by
    unfold Opt.number
    have := ctof_numeral u i.num hi.wf [] s (by simp) hs
    rw [List.nil_append] at this
    rw [this]
  rw [hx, ho, hb _ hsep, hn.skipcom, hnum]
  simp only [Option.map_some, Item.does, hm, Option.some.injEq, Prod.mk.injEq, and_true]
  funext w
  simp [Function.update_apply]

theorem item_next (i : Item) (hi : i.Good) (s : List Char) : Next (i.text ++ s) := by
  have hc := List.all_eq_true.mp words_checked i.name (meant_words i.name hi.known)
  simp only [Bool.and_eq_true] at hc
  obtain ⟨h1, h2⟩ := Opt.word_of hc.1.1
  obtain ⟨c, r, e⟩ := List.exists_cons_of_ne_nil h1
  have := h2 c (by rw [e]; simp)
  refine .inr ⟨c, r ++ (if i.eq then '=' else ' ') :: (i.num.text ++ s), by simp [Item.text, e], this.1, ?_⟩
  rintro rfl
  exact absurd this.2 (by decide)

theorem line_next : ∀ (l : List Item), (∀ i ∈ l, i.Good) → Next (lineText l)
  | [], _ => .inl rfl
  | [i], h => by
    have := item_next i (h i (by simp)) []
    rwa [List.append_nil] at this
  | i :: j :: r, h => item_next i (h i (by simp)) _

/-- **C85, the command**: a line of names and numbers sets each variable that is named, the later of two, and no other. -/
theorem loop_items (u : Units) (ci : Bool) : ∀ (l : List Item) (n : ℕ) (g : Var → ℚ) (here : ℕ), l ≠ [] → l.length ≤ n → (∀ i ∈ l, i.Good) →
    (lineText l).length ≤ here → loop u ci n g here (lineText l) = .done (l.foldl (Item.does u) g) []
  | [], _, _, _, h, _, _, _ => absurd rfl h
  | _ :: _, 0, _, _, _, h, _, _ => by simp at h
  | [i], n + 1, g, here, _, _, hg, hh => by
    have := tryAll_item u ci g i (hg i (by simp)) [] (by intro c hc; simp at hc)
    rw [List.append_nil] at this
    rw [loop]
    simp only [lineText, this]
    rw [show skipbl (skipcom []) = [] from rfl, if_pos rfl]
    rfl
  | i :: j :: r, n + 1, g, here, _, hn, hg, hh => by
    have h1 := tryAll_item u ci g i (hg i (by simp)) (' ' :: lineText (j :: r)) (by intro c hc; simp at hc; subst hc; decide)
    have hx := line_next (j :: r) (fun x hx => hg x (by simp [hx]))
    have h2 : skipbl (skipcom (' ' :: lineText (j :: r))) = lineText (j :: r) := by
      have : skipcom (' ' :: lineText (j :: r)) = skipcom (lineText (j :: r)) := by
        unfold skipcom
        rw [show skipbl (' ' :: lineText (j :: r)) = skipbl (lineText (j :: r)) from by rw [skipbl]; simp [isGraph]]
      rw [this, hx.skipcom, hx.skipbl]
    have hlen : (lineText (j :: r)).length < (lineText (i :: j :: r)).length := by
      simp only [lineText, List.length_append, List.length_cons]; omega
    have hne : lineText (j :: r) ≠ [] := by
      intro h
      have := tryAll_item u ci g j (hg j (by simp)) [] (by intro c hc; simp at hc)
      have hj : j.text ≠ [] := by simp [Item.text]
      cases r with
      | nil => exact hj h
      | cons k r => simp [lineText] at h
    rw [loop]
    have e : lineText (i :: j :: r) = i.text ++ ' ' :: lineText (j :: r) := rfl
    rw [e, h1]
    simp only
    rw [h2, if_neg hne, if_pos (by omega)]
    rw [loop_items u ci (j :: r) n _ _ (by simp) (by simp at hn ⊢; omega) (fun x hx => hg x (by simp [hx])) (le_refl _)]
    rfl

theorem command_line (u : Units) (ci : Bool) (l : List Item) (n : ℕ) (g : Var → ℚ) (hl : l ≠ []) (hn : l.length ≤ n) (hg : ∀ i ∈ l, i.Good) :
    command u ci n g (lineText l) = .done (l.foldl (Item.does u) g) [] := loop_items u ci l n g _ hl hn hg (le_refl _)

/-- **C85, the end of the command**: whatever the line, the loop ends. -/
theorem loop_ends (u : Units) (ci : Bool) : ∀ (n : ℕ) (g : Var → ℚ) (here : ℕ) (s : List Char), here < n → loop u ci n g here s ≠ .running
  | 0, _, _, _, h => by omega
  | n + 1, g, here, s, h => by
    rw [loop]
    split
    · simp
    · split
      · simp
      · split
        · exact loop_ends u ci n _ _ _ (by omega)
        · simp

theorem command_ends (u : Units) (ci : Bool) (n : ℕ) (g : Var → ℚ) (s : List Char) (h : s.length < n) : command u ci n g s ≠ .running :=
  loop_ends u ci n g _ s h

/-- the variables that are never negative -/
def NonNeg (g : Var → ℚ) : Prop := ∀ v ∈ [Var.freq, .rise, .fall, .delay, .width, .period], 0 ≤ g v

theorem tryAll_nonneg (u : Units) (ci : Bool) (g : Var → ℚ) (hg : NonNeg g) (s : List Char) : ∀ (l : List (List Char × Var × Bool)), (∀ e ∈ l, e ∈ table) →
    ∀ g' r, tryAll u ci g s l = some (g', r) → NonNeg g'
  | [], _, g', r, h => by cases h; exact hg
  | (key, v, pos) :: l, hl, g', r, h => by
    rw [tryAll] at h
    split at h
    · rcases hx : Opt.number u _ with _ | x
      · rw [hx] at h; cases h
      · rw [hx] at h
        cases h
        have hpos : v ∈ [Var.freq, .rise, .fall, .delay, .width, .period] → pos = true := by
          have hall : (table.all fun e => decide (e.2.1 ∈ [Var.freq, .rise, .fall, .delay, .width, .period] → e.2.2 = true)) = true := by decide +kernel
          have := List.all_eq_true.mp hall _ (hl _ (List.mem_cons_self ..))
          exact of_decide_eq_true this
        intro w hw
        rw [Function.update_apply]
        split
        · rename_i e
          rw [hpos (e ▸ hw), if_pos rfl]
          exact abs_nonneg _
        · exact hg w hw
    · exact tryAll_nonneg u ci g hg s l (fun e he => hl e (by simp [he])) g' r h
    · cases h

/-- **C85, times are not negative**: after any line, if they were not before. -/
theorem loop_nonneg (u : Units) (ci : Bool) : ∀ (n : ℕ) (g : Var → ℚ) (here : ℕ) (s : List Char) (g' : Var → ℚ) (r : List Char), NonNeg g →
    loop u ci n g here s = .done g' r → NonNeg g'
  | 0, _, _, _, _, _, _, h => by cases h
  | n + 1, g, here, s, g', r, hg, h => by
    rw [loop] at h
    rcases ht : tryAll u ci g s table with _ | ⟨g1, r1⟩
    · rw [ht] at h; cases h
    · have h1 := tryAll_nonneg u ci g hg s table (fun _ h => h) g1 r1 ht
      rw [ht] at h
      simp only at h
      split at h
      · cases h; exact h1
      · split at h
        · exact loop_nonneg u ci n _ _ _ _ _ h1 h
        · cases h; exact h1

theorem command_ok (u : Units) (ci : Bool) (n : ℕ) (lines : List (List Char)) : ∀ (g g' : Var → ℚ), NonNeg g →
    lines.foldlM (fun g s => match command u ci n g s with | .done g' _ => some g' | _ => none) g = some g' → Ok fun v => (g' v : ℝ) := by
  induction lines with
  | nil =>
    intro g g' hg h
    cases h
    refine ⟨?_, ?_, ?_, ?_, ?_, ?_⟩ <;> exact_mod_cast hg _ (by simp)
  | cons s l ih =>
    intro g g' hg h
    rw [List.foldlM_cons] at h
    rcases hc : command u ci n g s with ⟨g1, r1⟩ | _ | _
    · rw [hc] at h
      exact ih g1 g' (loop_nonneg u ci n g _ s g1 r1 hg hc) h
    · rw [hc] at h; cases h
    · rw [hc] at h; cases h

theorem initial_nonneg : NonNeg initial := by
  intro v hv
  fin_cases hv <;> simp [initial]

/-- **C85, words that are not known**: the command ends there and nothing changes. -/
theorem unknown_stops (u : Units) (ci : Bool) (n : ℕ) (g : Var → ℚ) (w rest : List Char) (hw : Opt.Word w) (hr : isTerm rest = true)
    (h : ∀ e ∈ table, Opt.fails ci (Opt.segsOf none (pattern e.1)) w = true) : command u ci (n + 1) g (w ++ rest) = .done g (w ++ rest) := by
  have := tryAll_misses u ci g w rest hw hr [] table (fun e he => ⟨he, h e he⟩)
  rw [List.append_nil] at this
  unfold command
  rw [loop, this]
  simp only [tryAll]
  rw [hw.skipbl, if_neg (by simp [hw.1]), if_neg (by simp)]

/-! ## Examples -/

/-- 1 V for 3 s in every 10 s, with 1 s to rise and 2 s to fall, from 5 s on -/
def demo : Var → ℝ
  | .freq => 0
  | .ampl => 2
  | .maxv => 4
  | .minv => 1
  | .rise => 1
  | .fall => 2
  | .delay => 5
  | .width => 3
  | .period => 10
  | _ => 0

theorem demo_ok : Ok demo := ⟨by simp [demo], by simp [demo], by simp [demo], by simp [demo], by simp [demo], by simp [demo]⟩

/-- half way up, half way down, off, and half way up again -/
example : gen demo (11 / 2) = some 4 ∧ gen demo 10 = some 5 ∧ gen demo 12 = some 2 ∧ gen demo (31 / 2) = some 5 := by
  refine ⟨?_, ?_, ?_, ?_⟩
  · rw [first_rise demo demo_ok _ (by simp [demo]; norm_num) (by simp [demo]; norm_num) (.inr (by simp [demo]))]
    simp [between, carrier, demo]
    norm_num
  · rw [shape demo demo_ok 10 5 (by simp [demo]; norm_num) (by simp [demo]) (by simp [demo]) (by simp [demo])
      (.inr ⟨0, by norm_num, by simp [demo]; norm_num, by simp [demo]; norm_num⟩)]
    simp [between, carrier, demo, trap]
    norm_num
  · rw [shape demo demo_ok 12 7 (by simp [demo]; norm_num) (by simp [demo]) (by simp [demo]) (by simp [demo])
      (.inr ⟨0, by norm_num, by simp [demo]; norm_num, by simp [demo]; norm_num⟩)]
    simp [between, carrier, demo, trap]
    norm_num
  · rw [shape demo demo_ok (31 / 2) (1 / 2) (by simp [demo]; norm_num) (by simp [demo]) (by simp [demo]) (by simp [demo])
      (.inr ⟨1, by norm_num, by simp [demo]; norm_num, by simp [demo]; norm_num⟩)]
    simp [between, carrier, demo, trap]
    norm_num

example : ∃ f : ℝ → ℝ, Continuous f ∧ ∀ t, gen demo t = some (f t) :=
  continuous_wave demo demo_ok (by simp [demo]) (by simp [demo]) (by simp [demo]) (.inr (by simp [demo]; norm_num))

example : gen demo (12 + demo .period) = gen demo 12 :=
  periodic demo demo_ok 12 (by simp [demo]; norm_num) (by simp [demo]) ⟨0, by simp [demo]⟩

/-- no time to rise -/
def sharp : Var → ℝ := fun v => if v = .rise then 0 else demo v

example : gen sharp 15 = none := by
  refine (no_number sharp ⟨?_, ?_, ?_, ?_, ?_, ?_⟩ 15).mpr ⟨?_, ?_, 1, by norm_num, ?_⟩ <;> simp [sharp, demo]
  norm_num

/-- always on, in periods of 10 s -/
def on : Var → ℝ := fun v => if v = .width then 0 else demo v

example : gen on (5 + (0 + 1) * 10) = some 2 := by
  have := (on_drops on ⟨by simp [on, demo], by simp [on, demo], by simp [on, demo], by simp [on, demo], by simp [on, demo], by simp [on, demo]⟩
    (by simp [on, demo]) (by simp [on]) (by simp [on, demo]) 0).2
  simpa [on, demo, carrier] using this

/-- 12 s to rise -/
def slow : Var → ℝ := fun v => if v = .rise then 12 else demo v

example : gen slow (5 + 10) = some 0 := by
  have := (long_rise slow ⟨by simp [slow, demo], by simp [slow, demo], by simp [slow, demo], by simp [slow, demo], by simp [slow, demo], by simp [slow, demo]⟩
    (by simp [slow, demo]) (by simp [slow, demo]; norm_num)).1
  simpa [slow, demo] using this

/-- `f` is the frequency, `fa` the time to fall, `p` the phase, `pe` the period -/
example : meant ['f'] = some (.freq, true) ∧ meant ['f', 'a'] = some (.fall, true) ∧ meant ['p'] = some (.phaz, false) ∧
    meant ['p', 'e'] = some (.period, true) ∧ meant ['m'] = none := by decide +kernel

def minusThree : Numeral := ⟨some true, [3], false, [], .word []⟩

theorem minusThree_wf : minusThree.Wf :=
  ⟨by simp [minusThree], by simp [minusThree], by simp [minusThree], by simp [minusThree], by simp [minusThree, Num.Word]⟩

/-- `ri=-3 offset -3` -/
example : String.ofList (lineText [⟨['r', 'i'], true, minusThree⟩, ⟨['o', 'f', 'f', 's', 'e', 't'], false, minusThree⟩]) = "ri=-3 offset -3" := by decide +kernel

example (g : Var → ℚ) : ∃ g', command .si false 2 g (lineText [⟨['r', 'i'], true, minusThree⟩, ⟨['o', 'f', 'f', 's', 'e', 't'], false, minusThree⟩]) = .done g' [] ∧
    g' .rise = 3 ∧ g' .offset = -3 ∧ g' .fall = g .fall := by
  refine ⟨_, command_line .si false _ 2 g (by simp) (by simp) (by
    intro i hi
    fin_cases hi
    · exact ⟨by decide +kernel, minusThree_wf⟩
    · exact ⟨by decide +kernel, minusThree_wf⟩), ?_⟩
  have hv : minusThree.value .si = -3 := by decide +kernel
  have m1 : meant ['r', 'i'] = some (.rise, true) := by decide +kernel
  have m2 : meant ['o', 'f', 'f', 's', 'e', 't'] = some (.offset, false) := by decide +kernel
  simp [Item.does, m1, m2, hv]

example (g : Var → ℚ) : command .si false 1 g (['m', '='] ) = .done g ['m', '='] :=
  unknown_stops .si false 0 g ['m'] ['='] ⟨by simp, by decide⟩ rfl (by decide +kernel)

end Gnucap.Gen
