import Verif.SourceModel
import Mathlib.Analysis.SpecialFunctions.Trigonometric.Complex
import Mathlib.Tactic.Linarith
import Mathlib.Tactic.Ring
import Mathlib.Tactic.FieldSimp
import Mathlib.Tactic.NormNum
import Mathlib.Tactic.Positivity
import Mathlib.Tactic.LinearCombination

/-!
# Pulse and sine sources: shape and announced corners (C28, C33)
-/
set_option linter.unusedSectionVars false
namespace Gnucap.Source

section pulse
variable {F : Type _} [Field F] [LinearOrder F] [IsStrictOrderedRing F] [FloorRing F]

/-- nothing negative -/
structure Pulse.Ok (p : Pulse F) : Prop where
  rise : 0 ≤ p.rise
  fall : 0 ≤ p.fall
  width : 0 ≤ p.width

theorem fmod_range (x : F) {y : F} (hy : 0 < y) : 0 ≤ fmod x y ∧ fmod x y < y := by
  have h1 := Int.floor_le (x / y)
  have h2 := Int.lt_floor_add_one (x / y)
  rw [le_div_iff₀ hy] at h1
  rw [div_lt_iff₀ hy] at h2
  unfold fmod
  constructor <;> nlinarith

theorem fmod_unique (x : F) {y : F} (hy : 0 < y) (n : ℤ) (h0 : 0 ≤ x - y * n) (h1 : x - y * n < y) : fmod x y = x - y * n := by
  have : ⌊x / y⌋ = n := by
    rw [Int.floor_eq_iff, le_div_iff₀ hy, div_lt_iff₀ hy]
    constructor <;> nlinarith
  rw [fmod, this]

theorem reltime_nonneg (big : F) (p : Pulse F) (t : F) (h : p.delay < t) : 0 ≤ p.reltime big t := by
  unfold Pulse.reltime
  split
  · rename_i hp; exact (fmod_range _ hp.1).1
  · linarith

/-- **C28, bounds**: the source always lies between its two values. -/
theorem pulse_bounds (big : F) (p : Pulse F) (h : p.Ok) (t : F) :
    min p.iv p.pv ≤ p.eval big t ∧ p.eval big t ≤ max p.iv p.pv := by
  have mix : ∀ (a b x : F), 0 ≤ x → x ≤ 1 → min a b ≤ a + x * (b - a) ∧ a + x * (b - a) ≤ max a b := by
    intro a b x h0 h1
    rcases le_total a b with hab | hab
    · rw [min_eq_left hab, max_eq_right hab]
      constructor <;> nlinarith
    · rw [min_eq_right hab, max_eq_left hab]
      constructor <;> nlinarith
  unfold Pulse.eval
  split
  · exact ⟨min_le_left _ _, le_max_left _ _⟩
  · rename_i ht
    have hr := reltime_nonneg big p t (not_le.mp ht)
    simp only
    split
    · rename_i h1
      have hpos : 0 < p.rise := lt_of_le_of_lt hr h1
      exact mix _ _ _ (div_nonneg hr h.rise) ((div_le_one hpos).mpr h1.le)
    · split
      · exact ⟨min_le_right _ _, le_max_right _ _⟩
      · split
        · rename_i h1 h2 h3
          have hpos : 0 < p.fall := by linarith
          have := mix p.pv p.iv ((p.reltime big t - (p.rise + p.width)) / p.fall) (div_nonneg (by linarith) h.fall)
            ((div_le_one hpos).mpr (by linarith))
          rwa [min_comm, max_comm] at this
        · exact ⟨min_le_left _ _, le_max_left _ _⟩

/-- **C28, periodic**. -/
theorem pulse_periodic (big : F) (p : Pulse F) (h0 : 0 < p.period) (h1 : p.period < big) (t : F) (ht : p.delay < t) :
    p.eval big (t + p.period) = p.eval big t := by
  have e : p.reltime big (t + p.period) = p.reltime big t := by
    unfold Pulse.reltime
    rw [if_pos ⟨h0, h1⟩, if_pos ⟨h0, h1⟩]
    have r := fmod_range (t - p.delay) h0
    rw [fmod_unique (t + p.period - p.delay) h0 (⌊(t - p.delay) / p.period⌋ + 1)]
    · unfold fmod; push_cast; ring
    · have := r.1; unfold fmod at this; push_cast; linarith
    · have := r.2; unfold fmod at this; push_cast; linarith
  have c1 : ¬ t + p.period ≤ p.delay := by linarith
  have c2 : ¬ t ≤ p.delay := by linarith
  unfold Pulse.eval
  rw [if_neg c1, if_neg c2, e]

/-- (specification) the trapezoid with both ramps: the lower one of the rising and the falling line, cut off at 0 and 1 -/
def trapezoid (p : Pulse F) (r : F) : F :=
  p.iv + (p.pv - p.iv) * max 0 (min 1 (min (r / p.rise) ((p.rise + p.width + p.fall - r) / p.fall)))

/-- **C28, shape**: in period `n` (the only one, `n = 0`, without a period) the source is the trapezoid. -/
theorem pulse_shape (big : F) (p : Pulse F) (hr : 0 < p.rise) (hf : 0 < p.fall) (hw : 0 ≤ p.width) (n : ℤ) (t : F) (ht : p.delay < t)
    (hn : (0 < p.period ∧ p.period < big ∧ p.delay + n * p.period ≤ t ∧ t < p.delay + (n + 1) * p.period) ∨
      (¬ (0 < p.period ∧ p.period < big) ∧ n = 0)) :
    p.eval big t = trapezoid p (t - p.delay - n * p.period) := by
  have e : p.reltime big t = t - p.delay - n * p.period := by
    unfold Pulse.reltime
    rcases hn with ⟨h0, h1, h2, h3⟩ | ⟨h0, rfl⟩
    · rw [if_pos ⟨h0, h1⟩, fmod_unique _ h0 n (by linarith) (by linarith)]
      ring
    · rw [if_neg h0]; simp
  have h0 : 0 ≤ t - p.delay - n * p.period := e ▸ reltime_nonneg big p t ht
  unfold Pulse.eval
  rw [if_neg (not_le.mpr ht), e]
  generalize t - p.delay - n * p.period = r at *
  unfold trapezoid
  simp only
  have d1 : r / p.rise < 1 ↔ r < p.rise := div_lt_one hr
  have d0 : 0 ≤ r / p.rise := div_nonneg h0 hr.le
  split
  · rename_i h
    have : 1 ≤ (p.rise + p.width + p.fall - r) / p.fall := by rw [one_le_div hf]; linarith
    rw [min_eq_left ((d1.mpr h).le.trans this), min_eq_right (d1.mpr h).le, max_eq_right d0]; ring
  · rename_i h
    have d2 : 1 ≤ r / p.rise := not_lt.mp (fun hc => h (d1.mp hc))
    split
    · rename_i h1
      have : 1 ≤ (p.rise + p.width + p.fall - r) / p.fall := by rw [one_le_div hf]; linarith
      rw [min_eq_left (le_min d2 this), max_eq_right zero_le_one]; ring
    · rename_i h1
      have d3 : (p.rise + p.width + p.fall - r) / p.fall < 1 := by rw [div_lt_one hf]; linarith
      rw [min_eq_right (d3.le.trans d2), min_eq_right d3.le]
      split
      · rename_i h2
        have : 0 ≤ (p.rise + p.width + p.fall - r) / p.fall := div_nonneg (by linarith) hf.le
        rw [max_eq_right this]
        field_simp; ring
      · rename_i h2
        have : (p.rise + p.width + p.fall - r) / p.fall ≤ 0 := div_nonpos_of_nonpos_of_nonneg (by linarith) hf.le
        rw [max_eq_left this]; ring

/-- **C28, without ramps** (rise and fall 0): the pulsed value for the time `width`, then the initial value. -/
theorem pulse_shape_square (big : F) (p : Pulse F) (hr : p.rise = 0) (hf : p.fall = 0) (n : ℤ) (t : F) (ht : p.delay < t)
    (hn : (0 < p.period ∧ p.period < big ∧ p.delay + n * p.period ≤ t ∧ t < p.delay + (n + 1) * p.period) ∨
      (¬ (0 < p.period ∧ p.period < big) ∧ n = 0)) :
    p.eval big t = if t - p.delay - n * p.period ≤ p.width then p.pv else p.iv := by
  have e : p.reltime big t = t - p.delay - n * p.period := by
    unfold Pulse.reltime
    rcases hn with ⟨h0, h1, h2, h3⟩ | ⟨h0, rfl⟩
    · rw [if_pos ⟨h0, h1⟩, fmod_unique _ h0 n (by linarith) (by linarith)]
      ring
    · rw [if_neg h0]; simp
  have h0 : 0 ≤ t - p.delay - n * p.period := e ▸ reltime_nonneg big p t ht
  unfold Pulse.eval
  rw [if_neg (not_le.mpr ht), e, hr, hf]
  generalize t - p.delay - n * p.period = r at *
  simp only [zero_add, add_zero]
  rw [if_neg (not_lt.mpr h0)]
  split
  · rfl
  · rename_i h
    rw [if_neg (by linarith)]

/-- (specification) the times where the source has a corner or a jump -/
def corner (big : F) (p : Pulse F) (t : F) : Prop :=
  t = p.delay ∨
  ∃ n : ℕ, (n = 0 ∨ (0 < p.period ∧ p.period < big)) ∧
    (t = p.delay + n * p.period ∨ t = p.delay + n * p.period + p.rise ∨ t = p.delay + n * p.period + p.rise + p.width ∨
      t = p.delay + n * p.period + p.rise + p.width + p.fall)

/-- in which period `raw` lies, and how far -/
theorem reltime_spec (big : F) (p : Pulse F) (raw : F) (h : p.delay < raw) :
    ∃ n : ℕ, (n = 0 ∨ (0 < p.period ∧ p.period < big)) ∧ raw = p.delay + n * p.period + p.reltime big raw ∧ 0 ≤ p.reltime big raw ∧
      ((0 < p.period ∧ p.period < big) → p.reltime big raw < p.period) := by
  have h0 := reltime_nonneg big p raw h
  unfold Pulse.reltime at h0 ⊢
  split
  · rename_i hp
    have hfl : 0 ≤ ⌊(raw - p.delay) / p.period⌋ := Int.floor_nonneg.mpr (div_nonneg (by linarith) hp.1.le)
    obtain ⟨m, hm⟩ := Int.eq_ofNat_of_zero_le hfl
    refine ⟨m, Or.inr hp, ?_, (fmod_range _ hp.1).1, fun _ => (fmod_range _ hp.1).2⟩
    unfold fmod
    rw [hm]; push_cast; ring
  · rename_i hp
    exact ⟨0, Or.inl rfl, by push_cast; ring, by linarith, fun h => absurd h hp⟩

theorem reltime_in (big : F) (p : Pulse F) (n : ℕ) (hn : n = 0 ∨ (0 < p.period ∧ p.period < big)) (t : F)
    (h0 : p.delay + n * p.period ≤ t) (h1 : (0 < p.period ∧ p.period < big) → t < p.delay + n * p.period + p.period) :
    p.reltime big t = t - p.delay - n * p.period := by
  unfold Pulse.reltime
  split
  · rename_i hp
    have h1 := h1 hp
    have := fmod_unique (t - p.delay) hp.1 n (by push_cast; linarith) (by push_cast; linarith)
    rw [this]; push_cast; ring
  · rename_i hp
    rw [hn.resolve_right hp]; simp

/-- **C28, announced corners, partial**: if there is no corner in the two smallest steps after `time0`, and the pulse fits in its
period, then the source is a straight line from `time0` to the announced event, and there is no corner in between. -/
theorem pulse_straight_partial (big dtmin : F) (p : Pulse F) (h : p.Ok) (hd : 0 < dtmin) (time0 : F)
    (hfit : (0 < p.period ∧ p.period < big) → p.rise + p.width + p.fall ≤ p.period)
    (hbig : ¬ (0 < p.period ∧ p.period < big) → time0 + dtmin * 2 < p.delay + p.period)
    (hno : ∀ c, time0 < c → c ≤ time0 + dtmin * 2 → ¬ corner big p c) :
    time0 + dtmin * 2 ≤ p.review big dtmin time0 ∧
    (∃ a b : F, ∀ t, time0 < t → t < p.review big dtmin time0 → p.eval big t = a + b * t) ∧
    (∀ c, time0 < c → c < p.review big dtmin time0 → ¬ corner big p c) := by
  obtain ⟨hr, hf, hw⟩ := h
  by_cases hraw : time0 + dtmin * 2 ≤ p.delay
  · have e : p.review big dtmin time0 = p.delay := by unfold Pulse.review; simp only; rw [if_pos hraw]
    rw [e]
    refine ⟨hraw, ⟨p.iv, 0, ?_⟩, ?_⟩
    · intro t _ ht
      unfold Pulse.eval
      rw [if_pos ht.le]; ring
    · rintro c _ hc (rfl | ⟨n, hn, hcn⟩)
      · exact lt_irrefl _ hc
      · have : 0 ≤ (n : F) * p.period := by
          rcases hn with rfl | hp
          · simp
          · exact mul_nonneg (by positivity) hp.1.le
        rcases hcn with rfl | rfl | rfl | rfl <;> linarith
  · have hraw' := not_le.mp hraw
    obtain ⟨n, hn, hx, hx0, hx1⟩ := reltime_spec big p (time0 + dtmin * 2) hraw'
    generalize hrr : p.reltime big (time0 + dtmin * 2) = r at *
    have hoff : time0 + dtmin * 2 - r = p.delay + n * p.period := by rw [hx]; ring
    -- not before the beginning of this period
    have hbeg : p.delay + n * p.period ≤ time0 := by
      by_contra hc
      exact hno (p.delay + n * p.period) (not_le.mp hc) (by linarith) (Or.inr ⟨n, hn, Or.inl rfl⟩)
    have hdel : p.delay ≤ time0 := by
      by_contra hc
      exact hno p.delay (not_le.mp hc) hraw'.le (Or.inl rfl)
    have heval : ∀ t, time0 < t → ((0 < p.period ∧ p.period < big) → t < p.delay + n * p.period + p.period) →
        ¬ t ≤ p.delay ∧ p.reltime big t = t - p.delay - n * p.period := by
      intro t h1 h2
      exact ⟨by linarith, reltime_in big p n hn t (by linarith) h2⟩
    -- corners of other periods are outside
    have hcor : ∀ c, time0 < c → ((0 < p.period ∧ p.period < big) → c < p.delay + n * p.period + p.period) → corner big p c →
        c = p.delay + n * p.period + p.rise ∨ c = p.delay + n * p.period + p.rise + p.width ∨
        c = p.delay + n * p.period + p.rise + p.width + p.fall := by
      rintro c h1 h2 (rfl | ⟨m, hm, hc⟩)
      · linarith
      · by_cases hp : 0 < p.period ∧ p.period < big
        · have h2 := h2 hp
          have hfit := hfit hp
          rcases lt_trichotomy m n with hlt | rfl | hgt
          · have : (m : F) + 1 ≤ n := by exact_mod_cast hlt
            have : (m : F) * p.period + p.period ≤ n * p.period := by nlinarith [hp.1]
            rcases hc with rfl | rfl | rfl | rfl <;> exfalso <;> linarith
          · rcases hc with rfl | h | h | h
            · exfalso; linarith
            · exact Or.inl h
            · exact Or.inr (Or.inl h)
            · exact Or.inr (Or.inr h)
          · have : (n : F) + 1 ≤ m := by exact_mod_cast hgt
            have : (n : F) * p.period + p.period ≤ m * p.period := by nlinarith [hp.1]
            rcases hc with rfl | rfl | rfl | rfl <;> exfalso <;> linarith
        · have hm0 := hm.resolve_right hp
          have hn0 := hn.resolve_right hp
          subst hm0 hn0
          rcases hc with rfl | h | h | h
          · exfalso; linarith
          · exact Or.inl h
          · exact Or.inr (Or.inl h)
          · exact Or.inr (Or.inr h)
    have hc1 : ¬ (time0 < p.delay + n * p.period + p.rise ∧ p.delay + n * p.period + p.rise ≤ time0 + dtmin * 2) :=
      fun hh => hno _ hh.1 hh.2 (Or.inr ⟨n, hn, Or.inr (Or.inl rfl)⟩)
    have hc2 : ¬ (time0 < p.delay + n * p.period + p.rise + p.width ∧ p.delay + n * p.period + p.rise + p.width ≤ time0 + dtmin * 2) :=
      fun hh => hno _ hh.1 hh.2 (Or.inr ⟨n, hn, Or.inr (Or.inr (Or.inl rfl))⟩)
    have hc3 : ¬ (time0 < p.delay + n * p.period + p.rise + p.width + p.fall ∧ p.delay + n * p.period + p.rise + p.width + p.fall ≤ time0 + dtmin * 2) :=
      fun hh => hno _ hh.1 hh.2 (Or.inr ⟨n, hn, Or.inr (Or.inr (Or.inr rfl))⟩)
    by_cases b1 : r < p.rise
    · have e : p.review big dtmin time0 = p.rise + (p.delay + n * p.period) := by
        unfold Pulse.review; simp only
        rw [if_neg hraw, hrr, if_pos b1, hoff]
      rw [e]
      have hin : ∀ t, t < p.rise + (p.delay + n * p.period) → (0 < p.period ∧ p.period < big) → t < p.delay + n * p.period + p.period := by
        intro t ht hp; have := hfit hp; linarith
      refine ⟨by linarith, ⟨p.iv - (p.delay + n * p.period) / p.rise * (p.pv - p.iv), (p.pv - p.iv) / p.rise, ?_⟩, ?_⟩
      · intro t h1 h2
        obtain ⟨g1, g2⟩ := heval t h1 (hin t h2)
        unfold Pulse.eval
        rw [if_neg g1, g2]
        simp only
        rw [if_pos (by linarith)]; ring
      · intro c h1 h2 h3
        rcases hcor c h1 (hin c h2) h3 with rfl | rfl | rfl <;> linarith
    · by_cases b2 : r < p.rise + p.width
      · have e : p.review big dtmin time0 = p.rise + p.width + (p.delay + n * p.period) := by
          unfold Pulse.review; simp only
          rw [if_neg hraw, hrr, if_neg b1, if_pos b2, hoff]
        rw [e]
        have hstart : p.delay + n * p.period + p.rise ≤ time0 := by
          by_contra hc
          exact hc1 ⟨not_le.mp hc, by linarith⟩
        have hin : ∀ t, t < p.rise + p.width + (p.delay + n * p.period) → (0 < p.period ∧ p.period < big) → t < p.delay + n * p.period + p.period := by
          intro t ht hp; have := hfit hp; linarith
        refine ⟨by linarith, ⟨p.pv, 0, ?_⟩, ?_⟩
        · intro t h1 h2
          obtain ⟨g1, g2⟩ := heval t h1 (hin t h2)
          unfold Pulse.eval
          rw [if_neg g1, g2]
          simp only
          rw [if_neg (by linarith), if_pos (by linarith)]; ring
        · intro c h1 h2 h3
          rcases hcor c h1 (hin c h2) h3 with rfl | rfl | rfl <;> linarith
      · have hstart : p.delay + n * p.period + p.rise + p.width ≤ time0 := by
          by_contra hc
          exact hc2 ⟨not_le.mp hc, by linarith⟩
        by_cases b3 : r < p.rise + p.width + p.fall
        · have e : p.review big dtmin time0 = p.rise + p.width + p.fall + (p.delay + n * p.period) := by
            unfold Pulse.review; simp only
            rw [if_neg hraw, hrr, if_neg b1, if_neg b2, if_pos b3, hoff]
          rw [e]
          have hin : ∀ t, t < p.rise + p.width + p.fall + (p.delay + n * p.period) → (0 < p.period ∧ p.period < big) → t < p.delay + n * p.period + p.period := by
            intro t ht hp; have := hfit hp; linarith
          refine ⟨by linarith, ⟨p.pv - (p.delay + n * p.period + (p.rise + p.width)) / p.fall * (p.iv - p.pv), (p.iv - p.pv) / p.fall, ?_⟩, ?_⟩
          · intro t h1 h2
            obtain ⟨g1, g2⟩ := heval t h1 (hin t h2)
            unfold Pulse.eval
            rw [if_neg g1, g2]
            simp only
            rw [if_neg (by linarith), if_neg (by linarith), if_pos (by linarith)]; ring
          · intro c h1 h2 h3
            rcases hcor c h1 (hin c h2) h3 with rfl | rfl | rfl <;> linarith
        · have hstart3 : p.delay + n * p.period + p.rise + p.width + p.fall ≤ time0 := by
            by_contra hc
            exact hc3 ⟨not_le.mp hc, by linarith⟩
          have e : p.review big dtmin time0 = p.period + (p.delay + n * p.period) := by
            unfold Pulse.review; simp only
            rw [if_neg hraw, hrr, if_neg b1, if_neg b2, if_neg b3, hoff]
          rw [e]
          have hin : ∀ t, t < p.period + (p.delay + n * p.period) → (0 < p.period ∧ p.period < big) → t < p.delay + n * p.period + p.period := by
            intro t ht hp; linarith
          refine ⟨?_, ⟨p.iv, 0, ?_⟩, ?_⟩
          · by_cases hp : 0 < p.period ∧ p.period < big
            · have := hx1 hp; linarith
            · have := hbig hp
              rw [hn.resolve_right hp]; push_cast; linarith
          · intro t h1 h2
            obtain ⟨g1, g2⟩ := heval t h1 (hin t h2)
            unfold Pulse.eval
            rw [if_neg g1, g2]
            simp only
            rw [if_neg (by linarith), if_neg (by linarith), if_neg (by linarith)]; ring
          · intro c h1 h2 h3
            rcases hcor c h1 (hin c h2) h3 with rfl | rfl | rfl <;> linarith

/-- **C28, in the future**: the announced time is at least two smallest steps ahead, so the assertion `event > time0 + dtmin`
(bm_pulse.cc:211-213) holds.  (With `period = BIGBIG` until that time.) -/
theorem pulse_event_future (big dtmin : F) (p : Pulse F) (time0 : F)
    (hbig : ¬ (0 < p.period ∧ p.period < big) → time0 + dtmin * 2 ≤ p.delay + p.period) :
    time0 + dtmin * 2 ≤ p.review big dtmin time0 := by
  unfold Pulse.review
  simp only
  split
  · assumption
  · rename_i h
    split
    · linarith
    · split
      · linarith
      · split
        · linarith
        · by_cases hp : 0 < p.period ∧ p.period < big
          · obtain ⟨n, -, -, -, h4⟩ := reltime_spec big p (time0 + dtmin * 2) (not_le.mp h)
            have := h4 hp
            linarith
          · have := hbig hp
            unfold Pulse.reltime
            rw [if_neg hp]; linarith

/-- `precalc_last` makes width and period positive, so that with positive ramps `pulse_shape` applies to every accepted source. -/
theorem precalc_pos (big : F) (hb : 0 < big) (p : Pulse F) (hw : 0 ≤ p.width) (hp : 0 ≤ p.period) :
    0 < (p.precalc big).width ∧ 0 < (p.precalc big).period ∧ (p.period = 0 → ¬ (p.precalc big).period < big) := by
  unfold Pulse.precalc
  refine ⟨?_, ?_, ?_⟩ <;> simp only
  · split
    · exact hb
    · exact lt_of_le_of_ne hw (Ne.symm ‹_›)
  · split
    · exact hb
    · exact lt_of_le_of_ne hp (Ne.symm ‹_›)
  · intro h; rw [if_pos h]; exact lt_irrefl _

end pulse

/-- 0 to 5 V, delay 1, rise 1, fall 1, width 3, period 10 -/
def demo : Pulse ℚ := ⟨0, 5, 1, 1, 1, 3, 10⟩

example : demo.Ok := ⟨by decide +kernel, by decide +kernel, by decide +kernel⟩
example : demo.eval 1000 (3 / 2) = 5 / 2 ∧ demo.eval 1000 3 = 5 ∧ demo.eval 1000 (11 / 2) = 5 / 2 ∧ demo.eval 1000 7 = 0 ∧
    demo.eval 1000 13 = 5 ∧ demo.review 1000 (1 / 100) 3 = 5 ∧ demo.review 1000 (1 / 100) 8 = 11 := by decide +kernel
/-- the hypotheses of `pulse_straight_partial` are met at time 3 -/
example : ∀ c : ℚ, 3 < c → c ≤ 3 + 1 / 100 * 2 → ¬ corner 1000 demo c := by
  rintro c h1 h2 (h | ⟨n, -, hc⟩)
  · simp [demo] at h; linarith
  · rcases n with _ | n
    · simp only [demo] at hc; push_cast at hc
      rcases hc with h | h | h | h <;> linarith
    · have : (0 : ℚ) ≤ n := by positivity
      simp only [demo] at hc; push_cast at hc
      rcases hc with h | h | h | h <;> linarith
example : demo.eval 1000 4 = trapezoid demo (4 - demo.delay - (0 : ℤ) * demo.period) :=
  pulse_shape 1000 demo (by decide +kernel) (by decide +kernel) (by decide +kernel) 0 4 (by decide +kernel)
    (Or.inl ⟨by decide +kernel, by decide +kernel, by norm_num [demo], by norm_num [demo]⟩)

/-- **C28 is false for a corner less than two smallest steps away**: the top corner at 2 is not announced at 1.99; the announced
time is the end of the top, and the source is not a straight line until then. -/
theorem pulse_near_corner_missed :
    demo.review 1000 (1 / 100) (199 / 100) = 5 ∧ corner 1000 demo 2 ∧
    ¬ ∃ a b : ℚ, ∀ t, 199 / 100 ≤ t → t < 5 → demo.eval 1000 t = a + b * t := by
  refine ⟨by decide +kernel, Or.inr ⟨0, Or.inl rfl, Or.inr (Or.inl (by norm_num [demo]))⟩, ?_⟩
  rintro ⟨a, b, h⟩
  have h1 := h (199 / 100) (by norm_num) (by norm_num)
  have h2 := h 2 (by norm_num) (by norm_num)
  have h3 := h 3 (by norm_num) (by norm_num)
  have e1 : demo.eval 1000 (199 / 100) = 99 / 20 := by decide +kernel
  have e2 : demo.eval 1000 2 = 5 := by decide +kernel
  have e3 : demo.eval 1000 3 = 5 := by decide +kernel
  rw [e1] at h1; rw [e2] at h2; rw [e3] at h3
  linarith

/-- **C28 is false for a pulse longer than its period**: the jump back at the end of the period is not announced. -/
theorem pulse_wrap_missed :
    let p : Pulse ℚ := ⟨0, 5, 0, 1, 1, 20, 10⟩
    p.review 1000 (1 / 100) 5 = 21 ∧ corner 1000 p 10 ∧ p.eval 1000 9 = 5 ∧ p.eval 1000 10 = 0 ∧ p.eval 1000 12 = 5 := by
  refine ⟨by decide +kernel, Or.inr ⟨1, Or.inr ⟨by norm_num, by norm_num⟩, Or.inl (by norm_num)⟩, by decide +kernel, by decide +kernel,
    by decide +kernel⟩

/-! ### sine -/

theorem sin_abs_one (x : ℝ) : |Real.sin x| = 1 ↔ ∃ k : ℤ, x = (k + 1 / 2) * Real.pi := by
  have h := Real.sin_sq_add_cos_sq x
  constructor
  · intro h1
    have h2 : Real.sin x ^ 2 = 1 := by rw [← sq_abs, h1]; norm_num
    have h3 : Real.cos x = 0 := by
      have : Real.cos x ^ 2 = 0 := by linarith
      exact pow_eq_zero_iff (by norm_num) |>.mp this
    obtain ⟨k, hk⟩ := Real.cos_eq_zero_iff.mp h3
    exact ⟨k, by rw [hk]; ring⟩
  · rintro ⟨k, rfl⟩
    have h3 : Real.cos ((k + 1 / 2) * Real.pi) = 0 := Real.cos_eq_zero_iff.mpr ⟨k, by ring⟩
    rw [h3] at h
    have : |Real.sin ((k + 1 / 2) * Real.pi)| ^ 2 = 1 := by rw [sq_abs]; linarith
    nlinarith [abs_nonneg (Real.sin ((k + 1 / 2) * Real.pi))]

/-- (specification) the phase of the source at a time -/
noncomputable def Sin.arg (s : Sin) (t : ℝ) : ℝ := 2 * Real.pi * s.freq * (t + s.ioffset - s.delay)

theorem arg_peak (s : Sin) (hi : s.ioffset = 0) (t : ℝ) :
    |Real.sin (s.arg t)| = 1 ↔ ∃ k : ℤ, t * 2 * s.freq = k + 1 / 2 + s.delay * 2 * s.freq := by
  rw [sin_abs_one]
  have hp := Real.pi_pos
  unfold Sin.arg
  rw [hi]
  constructor
  · rintro ⟨k, h⟩
    refine ⟨k, ?_⟩
    have := mul_left_cancel₀ hp.ne' (show Real.pi * (2 * s.freq * (t + 0 - s.delay)) = Real.pi * (k + 1 / 2) by linarith)
    linarith
  · rintro ⟨k, h⟩
    refine ⟨k, ?_⟩
    have : 2 * s.freq * (t + 0 - s.delay) = k + 1 / 2 := by linarith
    rw [← this]; ring

theorem arg_zero (s : Sin) (hi : s.ioffset = 0) (t : ℝ) :
    Real.sin (s.arg t) = 0 ↔ ∃ k : ℤ, t * 2 * s.freq = k + s.delay * 2 * s.freq := by
  rw [Real.sin_eq_zero_iff]
  have hp := Real.pi_pos
  unfold Sin.arg
  rw [hi]
  constructor
  · rintro ⟨k, h⟩
    refine ⟨k, ?_⟩
    have := mul_left_cancel₀ hp.ne' (show Real.pi * (2 * s.freq * (t + 0 - s.delay)) = Real.pi * k by linarith)
    linarith
  · rintro ⟨k, h⟩
    refine ⟨k, ?_⟩
    have : 2 * s.freq * (t + 0 - s.delay) = k := by linarith
    rw [← this]; ring

/-- **C33, peaks, partial**: when the delay is a whole number of half periods (for example 0), the announced event is the first
extreme of the sine after `time0 + 1e-6/freq`.  False for other delays (`sin_peak_wrong`); the input offset must be 0. -/
theorem sin_peak_partial (s : Sin) (hf : 0 < s.freq) (hp : s.peak = true) (hz : s.zero = false) (hi : s.ioffset = 0)
    (hd : ∃ m : ℤ, s.delay * 2 * s.freq = m) (time0 : ℝ) (ht : s.delay < time0 + 1e-6 / s.freq) :
    ∃ e, s.event time0 = some e ∧ IsLeast {t | time0 + 1e-6 / s.freq < t ∧ |Real.sin (s.arg t)| = 1} e := by
  obtain ⟨m, hm⟩ := hd
  have e0 : s.event time0 = some ((⌊(time0 + 1e-6 / s.freq) * 2 * s.freq + 0.5⌋ + 0.5) / (2 * s.freq)) := by
    simp [Sin.event, hp, hz, hi, ht]
  refine ⟨_, e0, ?_⟩
  generalize time0 + 1e-6 / s.freq = r at *
  have hf2 : 0 < 2 * s.freq := by positivity
  have h1 := Int.floor_le (r * 2 * s.freq + 0.5)
  have h2 := Int.lt_floor_add_one (r * 2 * s.freq + 0.5)
  generalize hk : ⌊r * 2 * s.freq + 0.5⌋ = k at *
  constructor
  · refine ⟨?_, ?_⟩
    · rw [lt_div_iff₀ hf2]; norm_num at *; linarith
    · rw [arg_peak s hi]
      refine ⟨k - m, ?_⟩
      rw [hm]; push_cast; field_simp; norm_num; ring
  · rintro t ⟨ht1, ht2⟩
    rw [arg_peak s hi] at ht2
    obtain ⟨j, hj⟩ := ht2
    rw [hm] at hj
    rw [div_le_iff₀ hf2]
    have hlt : (k : ℝ) < j + m + 1 := by
      have : r * 2 * s.freq < t * 2 * s.freq := by nlinarith
      norm_num at *
      linarith
    have : k ≤ j + m := by
      have : k < j + m + 1 := by exact_mod_cast hlt
      omega
    have : (k : ℝ) ≤ j + m := by exact_mod_cast this
    norm_num at *
    linarith

/-- **C33, zero crossings, partial** (same conditions). -/
theorem sin_zero_partial (s : Sin) (hf : 0 < s.freq) (hp : s.peak = false) (hz : s.zero = true) (hi : s.ioffset = 0)
    (hd : ∃ m : ℤ, s.delay * 2 * s.freq = m) (time0 : ℝ) (ht : s.delay < time0 + 1e-6 / s.freq) :
    ∃ e, s.event time0 = some e ∧ IsLeast {t | time0 + 1e-6 / s.freq < t ∧ Real.sin (s.arg t) = 0} e := by
  obtain ⟨m, hm⟩ := hd
  have e0 : s.event time0 = some (⌊(time0 + 1e-6 / s.freq) * 2 * s.freq + 1⌋ / (2 * s.freq)) := by
    simp [Sin.event, hp, hz, hi, ht]
  refine ⟨_, e0, ?_⟩
  generalize time0 + 1e-6 / s.freq = r at *
  have hf2 : 0 < 2 * s.freq := by positivity
  have h1 := Int.floor_le (r * 2 * s.freq + 1)
  have h2 := Int.lt_floor_add_one (r * 2 * s.freq + 1)
  generalize hk : ⌊r * 2 * s.freq + 1⌋ = k at *
  constructor
  · refine ⟨?_, ?_⟩
    · rw [lt_div_iff₀ hf2]; linarith
    · rw [arg_zero s hi]
      refine ⟨k - m, ?_⟩
      rw [hm]; push_cast; field_simp; ring
  · rintro t ⟨ht1, ht2⟩
    rw [arg_zero s hi] at ht2
    obtain ⟨j, hj⟩ := ht2
    rw [hm] at hj
    rw [div_le_iff₀ hf2]
    have hlt : (k : ℝ) < j + m + 1 := by
      have : r * 2 * s.freq < t * 2 * s.freq := by nlinarith
      linarith
    have : k ≤ j + m := by
      have : k < j + m + 1 := by exact_mod_cast hlt
      omega
    have : (k : ℝ) ≤ j + m := by exact_mod_cast this
    linarith

/-- **C33, both, partial**: when the delay is a whole number of quarter periods. -/
theorem sin_both_partial (s : Sin) (hf : 0 < s.freq) (hp : s.peak = true) (hz : s.zero = true) (hi : s.ioffset = 0)
    (hd : ∃ m : ℤ, s.delay * 4 * s.freq = m) (time0 : ℝ) (ht : s.delay < time0 + 1e-6 / s.freq) :
    ∃ e, s.event time0 = some e ∧
      IsLeast {t | time0 + 1e-6 / s.freq < t ∧ (Real.sin (s.arg t) = 0 ∨ |Real.sin (s.arg t)| = 1)} e := by
  obtain ⟨m, hm⟩ := hd
  have e0 : s.event time0 = some (⌊(time0 + 1e-6 / s.freq) * 4 * s.freq + 1⌋ / (4 * s.freq)) := by
    simp [Sin.event, hp, hz, hi, ht]
  refine ⟨_, e0, ?_⟩
  have hany : ∀ t, (Real.sin (s.arg t) = 0 ∨ |Real.sin (s.arg t)| = 1) ↔ ∃ k : ℤ, t * 4 * s.freq = k + m := by
    intro t
    rw [arg_zero s hi, arg_peak s hi]
    constructor
    · rintro (⟨k, hk⟩ | ⟨k, hk⟩)
      · exact ⟨2 * k, by push_cast; linarith⟩
      · exact ⟨2 * k + 1, by push_cast; linarith⟩
    · rintro ⟨k, hk⟩
      rcases Int.even_or_odd' k with ⟨j, rfl | rfl⟩
      · left; exact ⟨j, by push_cast at hk; linarith⟩
      · right; exact ⟨j, by push_cast at hk; linarith⟩
  generalize time0 + 1e-6 / s.freq = r at *
  have hf4 : 0 < 4 * s.freq := by positivity
  have h1 := Int.floor_le (r * 4 * s.freq + 1)
  have h2 := Int.lt_floor_add_one (r * 4 * s.freq + 1)
  generalize hk : ⌊r * 4 * s.freq + 1⌋ = k at *
  constructor
  · refine ⟨?_, ?_⟩
    · rw [lt_div_iff₀ hf4]; linarith
    · rw [hany]
      refine ⟨k - m, ?_⟩
      push_cast; field_simp; ring
  · rintro t ⟨ht1, ht2⟩
    rw [hany] at ht2
    obtain ⟨j, hj⟩ := ht2
    rw [div_le_iff₀ hf4]
    have hlt : (k : ℝ) < j + m + 1 := by
      have : r * 4 * s.freq < t * 4 * s.freq := by nlinarith
      linarith
    have : k ≤ j + m := by
      have : k < j + m + 1 := by exact_mod_cast hlt
      omega
    have : (k : ℝ) ≤ j + m := by exact_mod_cast this
    linarith

/-- 1 Hz, peaks asked for -/
noncomputable def sine (delay : ℝ) : Sin := ⟨0, 1, 1, delay, 0, 4, false, true, 0⟩

example : ∃ e, (sine 0).event 1 = some e ∧ IsLeast {t | 1 + 1e-6 / (sine 0).freq < t ∧ |Real.sin ((sine 0).arg t)| = 1} e :=
  sin_peak_partial (sine 0) (by norm_num [sine]) rfl rfl rfl ⟨0, by norm_num [sine]⟩ 1 (by norm_num [sine])

/-- **C33 is false when the delay is not a whole number of half periods**: with a delay of an eighth of a period the announced times
are never extremes (the value there is ±1/√2 of the amplitude), for every time. -/
theorem sin_peak_wrong (time0 : ℝ) (ht : 1 / 8 < time0) :
    ∃ e, (sine (1 / 8)).event time0 = some e ∧ |Real.sin ((sine (1 / 8)).arg e)| ≠ 1 := by
  have hpos : (1 / 8 : ℝ) < time0 + 1e-6 / 1 := by norm_num at *; linarith
  have e0 : (sine (1 / 8)).event time0 = some (((⌊(time0 + 1e-6 / 1) * 2 * 1 + 0.5⌋ : ℤ) + (0.5 : ℝ)) / (2 * 1)) := by
    simp only [Sin.event, sine, add_zero, gt_iff_lt, hpos, if_true]
    simp
  refine ⟨_, e0, ?_⟩
  rw [Ne, arg_peak _ rfl]
  rintro ⟨k, hk⟩
  generalize ⌊(time0 + 1e-6 / 1) * 2 * 1 + 0.5⌋ = m at hk
  simp only [sine] at hk
  have h4 : (4 * m : ℝ) = 4 * k + 1 := by norm_num at hk; linarith
  have : 4 * m = 4 * k + 1 := by exact_mod_cast h4
  omega

/-- **C33, bounds**: without growth the source stays within the amplitude around the offset, and is the offset until the delay. -/
theorem sin_bounds (tol : ℝ) (s : Sin) (hd : 0 ≤ s.damping) (t : ℝ) :
    |s.eval tol t - s.offset| ≤ |s.amplitude| ∧ (t + s.ioffset ≤ s.delay → s.eval tol t = s.offset) := by
  constructor
  · unfold Sin.eval
    simp only
    split
    · rename_i h
      have hw : |(if |Real.sin (2 * Real.pi * s.freq * (t + s.ioffset - s.delay))| < |1 * tol| then 0
          else Real.sin (2 * Real.pi * s.freq * (t + s.ioffset - s.delay)))| ≤ 1 := by
        split
        · simp
        · exact Real.abs_sin_le_one _
      generalize (if |Real.sin (2 * Real.pi * s.freq * (t + s.ioffset - s.delay))| < |1 * tol| then 0
          else Real.sin (2 * Real.pi * s.freq * (t + s.ioffset - s.delay))) = w at hw
      have hx : |s.amplitude * w| ≤ |s.amplitude| := by
        rw [abs_mul]; exact mul_le_of_le_one_right (abs_nonneg _) hw
      split
      · rw [add_sub_cancel_left, abs_mul, Real.abs_exp]
        have : Real.exp (-(t + s.ioffset - s.delay) * s.damping) ≤ 1 := by
          rw [Real.exp_le_one_iff]; nlinarith
        exact (mul_le_of_le_one_right (abs_nonneg _) this).trans hx
      · rwa [add_sub_cancel_left]
    · simp
  · intro h
    unfold Sin.eval
    simp only
    rw [if_neg (not_lt.mpr h)]

/-- **C33, an extreme of the sine is an extreme of the source** (undamped, after the delay): the bound of `sin_bounds` is taken
exactly where the sine is ±1. -/
theorem sin_extreme (tol : ℝ) (ht0 : 0 ≤ tol) (ht1 : tol ≤ 1) (s : Sin) (hd : s.damping = 0) (ha : s.amplitude ≠ 0) (t : ℝ)
    (ht : s.delay < t + s.ioffset) : |s.eval tol t - s.offset| = |s.amplitude| ↔ |Real.sin (s.arg t)| = 1 := by
  unfold Sin.eval Sin.arg
  simp only
  rw [if_pos ht, if_neg (not_not.mpr hd), add_sub_cancel_left, abs_mul]
  have ha' : 0 < |s.amplitude| := abs_pos.mpr ha
  rw [one_mul, abs_of_nonneg ht0]
  split
  · rename_i h
    simp only [abs_zero, mul_zero]
    constructor
    · intro h0; exact absurd h0.symm ha'.ne'
    · intro h0; rw [h0] at h; linarith
  · constructor
    · intro h0
      exact mul_left_cancel₀ ha'.ne' (h0.trans (mul_one _).symm)
    · intro h0; rw [h0, mul_one]

example : (sine 0).damping = 0 ∧ (sine 0).amplitude ≠ 0 ∧ (sine 0).delay < 1 + (sine 0).ioffset := by norm_num [sine]

end Gnucap.Source
