import Verif.SemiModel
import Mathlib.Tactic.Ring
import Mathlib.Tactic.Linarith
import Mathlib.Tactic.FieldSimp
import Mathlib.Tactic.Positivity
import Mathlib.Tactic.NormNum
import Mathlib.Algebra.Order.Field.Rat

/-! Claim C87: what length and width make of a semiconductor resistor or capacitor. -/

namespace Gnucap.Semi

variable {F : Type} [Field F] [LinearOrder F] [IsStrictOrderedRing F]

/-- The rectangle that is left of a device: a border of half of `narrow` is lost all round. -/
structure Rect (F : Type) where
  a : F
  b : F

def Rect.area (r : Rect F) : F := r.a * r.b
def Rect.rim (r : Rect F) : F := r.a + r.b + r.a + r.b

/-- A device of length `L` and width `W`, its width from the model if it has none. -/
def IsRect (m : Base F) (d : Dev F) (r : Rect F) : Prop :=
  d.length = some (r.a + m.narrow) ∧ (d.width = some (r.b + m.narrow) ∨ (d.width = none ∧ m.defw = r.b + m.narrow))

/-- The temperature polynomial of the model. -/
def Factor (m : Base F) (T : F) : F := 1 + m.tc1 * (T - m.tnom) + m.tc2 * (T - m.tnom) ^ 2

theorem factor_eq (m : Base F) (d : Dev F) : tempFactor m d = Factor m d.temp := by
  unfold tempFactor Factor
  ring

theorem rect_eff {notInput : F} {m : Base F} {d : Dev F} {r : Rect F} (h : IsRect m d r) :
    effLength notInput m d = r.a ∧ effWidth m d = r.b := by
  obtain ⟨h1, h2⟩ := h
  refine ⟨by simp [effLength, h1], ?_⟩
  rcases h2 with h2 | ⟨h2, h3⟩
  · simp [effWidth, h2]
  · simp [effWidth, h2, h3]

/-- A capacitor: so much per area of the rectangle, so much per length of its rim. -/
theorem capacitor_value (notInput : F) (m : CapModel F) (d : Dev F) (r : Rect F) (h : IsRect m.toBase d r)
    (ha : 0 < r.a) (hb : 0 < r.b) :
    capacitor notInput m d = .value ((m.cj * r.area + m.cjsw * r.rim) * Factor m.toBase d.temp) := by
  obtain ⟨h1, h2⟩ := rect_eff (notInput := notInput) h
  unfold capacitor
  simp only [h1, h2, if_neg (not_le.mpr ha), if_neg (not_le.mpr hb), factor_eq]
  congr 1
  unfold Rect.area Rect.rim
  ring

/-- A capacitor has a value only if something of it is left. -/
theorem capacitor_only (notInput : F) (m : CapModel F) (d : Dev F) (v : F) (hn : notInput ≤ m.narrow) :
    capacitor notInput m d = .value v →
      ∃ r : Rect F, IsRect m.toBase d r ∧ 0 < r.a ∧ 0 < r.b := by
  intro h
  have hw : 0 < effWidth m.toBase d := by
    by_contra hw
    simp only [capacitor, if_pos (not_lt.mp hw)] at h
    cases h
  have hl : 0 < effLength notInput m.toBase d := by
    by_contra hl
    simp only [capacitor, if_neg (not_le.mpr hw), if_pos (not_lt.mp hl)] at h
    cases h
  cases hd : d.length with
  | none =>
    simp only [effLength, hd, Option.getD_none] at hl
    linarith
  | some L =>
    cases hdw : d.width with
    | none =>
      refine ⟨⟨L - m.narrow, m.defw - m.narrow⟩, ⟨by rw [hd]; simp, Or.inr ⟨hdw, by simp⟩⟩, ?_, ?_⟩
      · simpa [effLength, hd] using hl
      · simpa [effWidth, hdw] using hw
    | some W =>
      refine ⟨⟨L - m.narrow, W - m.narrow⟩, ⟨by rw [hd]; simp, Or.inl (by rw [hdw]; simp)⟩, ?_, ?_⟩
      · simpa [effLength, hd] using hl
      · simpa [effWidth, hdw] using hw

/-- A resistor with a sheet resistance: so much per square, as many squares as the length holds widths. -/
theorem resistor_value (notInput big : F) (m : ResModel F) (rsh : F) (hr : m.rsh = some rsh) (d : Dev F) (r : Rect F)
    (h : IsRect m.toBase d r) (ha : 0 < r.a) (hb : 0 < r.b) (n : F) (hn : r.a = n * r.b) :
    resistor notInput big m d = .value (rsh * n * Factor m.toBase d.temp) := by
  obtain ⟨h1, h2⟩ := rect_eff (notInput := notInput) h
  unfold resistor
  simp only [hr, h1, h2, if_neg (not_le.mpr ha), if_neg (not_le.mpr hb), if_pos hb.ne', factor_eq]
  congr 2
  rw [hn]
  field_simp

/-- and only if something is left -/
theorem resistor_only (notInput big : F) (m : ResModel F) (rsh : F) (hr : m.rsh = some rsh) (d : Dev F) (v : F)
    (hn : notInput ≤ m.narrow) :
    resistor notInput big m d = .value v → ∃ r : Rect F, IsRect m.toBase d r ∧ 0 < r.a ∧ 0 < r.b := by
  intro h
  have hw : 0 < effWidth m.toBase d := by
    by_contra hw
    simp only [resistor, hr, if_pos (not_lt.mp hw)] at h
    cases h
  have hl : 0 < effLength notInput m.toBase d := by
    by_contra hl
    simp only [resistor, hr, if_neg (not_le.mpr hw), if_pos (not_lt.mp hl)] at h
    cases h
  cases hd : d.length with
  | none =>
    simp only [effLength, hd, Option.getD_none] at hl
    linarith
  | some L =>
    cases hdw : d.width with
    | none =>
      refine ⟨⟨L - m.narrow, m.defw - m.narrow⟩, ⟨by rw [hd]; simp, Or.inr ⟨hdw, by simp⟩⟩, ?_, ?_⟩
      · simpa [effLength, hd] using hl
      · simpa [effWidth, hdw] using hw
    | some W =>
      refine ⟨⟨L - m.narrow, W - m.narrow⟩, ⟨by rw [hd]; simp, Or.inl (by rw [hdw]; simp)⟩, ?_, ?_⟩
      · simpa [effLength, hd] using hl
      · simpa [effWidth, hdw] using hw

/-- Without a sheet resistance: the value on the line, with the temperature of the model; the sizes play
no part, and without a value the resistor is a short circuit. -/
theorem resistor_plain (notInput big : F) (m : ResModel F) (hr : m.rsh = none) (d : Dev F) :
    (∀ v, d.value = some v → resistor notInput big m d = .value (v * Factor m.toBase d.temp)) ∧
    (d.value = none → resistor notInput big m d = .value 0) := by
  constructor
  · intro v hv
    simp [resistor, hr, hv, factor_eq]
  · intro hv
    simp [resistor, hr, hv]

/-- The value on the line of a capacitor, and of a resistor whose model has a sheet resistance, is not
used, whatever it is; with a value and no length both are an error. -/
theorem line_value_unused (notInput big : F) (d : Dev F) (v : Option F) :
    (∀ m : CapModel F, capacitor notInput m { d with value := v } = capacitor notInput m d) ∧
    (∀ (m : ResModel F), m.rsh ≠ none → resistor notInput big m { d with value := v } = resistor notInput big m d) := by
  constructor
  · intro m
    rfl
  · intro m hm
    cases hr : m.rsh with
    | none => exact absurd hr hm
    | some rsh => simp only [resistor, hr]; rfl

theorem no_length (notInput big : F) (d : Dev F) (hd : d.length = none) :
    (∀ m : CapModel F, notInput ≤ m.narrow → ∀ v, capacitor notInput m d ≠ .value v) ∧
    (∀ m : ResModel F, m.rsh ≠ none → notInput ≤ m.narrow → ∀ v, resistor notInput big m d ≠ .value v) := by
  constructor
  · intro m hn v h
    obtain ⟨r, ⟨h1, -⟩, -⟩ := capacitor_only notInput m d v hn h
    rw [hd] at h1
    cases h1
  · intro m hm hn v h
    cases hr : m.rsh with
    | none => exact hm hr
    | some rsh =>
      obtain ⟨r, ⟨h1, -⟩, -⟩ := resistor_only notInput big m rsh hr d v hn h
      rw [hd] at h1
      cases h1

/-- At the nominal temperature the factor is one. -/
theorem nominal (m : Base F) : Factor m m.tnom = 1 := by
  unfold Factor
  ring

/-- A strip cut across: the resistances add, if nothing is lost at the rim. -/
theorem series (notInput big : F) (m : ResModel F) (rsh : F) (hr : m.rsh = some rsh) (hn : m.narrow = 0) (W T L1 L2 : F)
    (hW : 0 < W) (h1 : 0 < L1) (h2 : 0 < L2) (v : Option F) (x1 x2 : F)
    (e1 : resistor notInput big m ⟨some L1, some W, v, T⟩ = .value x1)
    (e2 : resistor notInput big m ⟨some L2, some W, v, T⟩ = .value x2) :
    resistor notInput big m ⟨some (L1 + L2), some W, v, T⟩ = .value (x1 + x2) := by
  have key : ∀ L, 0 < L → resistor notInput big m ⟨some L, some W, v, T⟩ = .value (rsh * (L / W) * Factor m.toBase T) :=
    fun L hL => resistor_value notInput big m rsh hr _ ⟨L, W⟩
      ⟨by simp [hn], Or.inl (by simp [hn])⟩ hL hW (L / W) (by field_simp)
  rw [key L1 h1] at e1
  rw [key L2 h2] at e2
  injection e1 with e1
  injection e2 with e2
  rw [key (L1 + L2) (by linarith), ← e1, ← e2]
  congr 1
  ring

/-- Larger capacitors have more, if neither density is negative and the temperature leaves something. -/
theorem capacitor_mono (notInput : F) (m : CapModel F) (d d' : Dev F) (r r' : Rect F)
    (h : IsRect m.toBase d r) (h' : IsRect m.toBase d' r') (ht : d.temp = d'.temp)
    (ha : 0 < r.a) (hb : 0 < r.b) (haa : r.a ≤ r'.a) (hbb : r.b ≤ r'.b) (hc : 0 ≤ m.cj) (hs : 0 ≤ m.cjsw)
    (hf : 0 ≤ Factor m.toBase d.temp) :
    ∃ x x', capacitor notInput m d = .value x ∧ capacitor notInput m d' = .value x' ∧ 0 ≤ x ∧ x ≤ x' := by
  refine ⟨_, _, capacitor_value notInput m d r h ha hb,
    capacitor_value notInput m d' r' h' (lt_of_lt_of_le ha haa) (lt_of_lt_of_le hb hbb), ?_, ?_⟩
  · unfold Rect.area Rect.rim
    positivity
  · rw [← ht]
    refine mul_le_mul_of_nonneg_right ?_ hf
    unfold Rect.area Rect.rim
    have h1 : m.cj * (r.a * r.b) ≤ m.cj * (r'.a * r'.b) :=
      mul_le_mul_of_nonneg_left (mul_le_mul haa hbb hb.le (ha.le.trans haa)) hc
    have h2 : m.cjsw * (r.a + r.b + r.a + r.b) ≤ m.cjsw * (r'.a + r'.b + r'.a + r'.b) :=
      mul_le_mul_of_nonneg_left (by linarith) hs
    exact add_le_add h1 h2

/-! ## Cases -/

/-- 10 squares of 50 ohm at 20 degrees above nominal, half a unit lost all round. -/
example : resistor (-1000) 1000 (⟨⟨1, 2, 1 / 100, 0, 27⟩, some 50⟩ : ResModel ℚ) ⟨some 11, none, some 7, 47⟩ =
    .value (50 * 10 * (1 + 1 / 100 * 20)) := by
  rw [resistor_value (-1000) 1000 _ 50 rfl _ ⟨10, 1⟩ ⟨by norm_num, Or.inr ⟨rfl, by norm_num⟩⟩ (by norm_num) (by norm_num) 10
    (by norm_num)]
  norm_num [Factor]

example : capacitor (-1000) (⟨⟨1, 2, 0, 0, 27⟩, 3, 5⟩ : CapModel ℚ) ⟨some 5, some 3, none, 27⟩ = .value (3 * 8 + 5 * 12) := by
  rw [capacitor_value (-1000) _ _ ⟨4, 2⟩ ⟨by norm_num, Or.inl (by norm_num)⟩ (by norm_num) (by norm_num)]
  norm_num [Factor, Rect.area, Rect.rim]

/-- a value and no length -/
example : ∀ v, capacitor (-1000) (⟨⟨0, 1, 0, 0, 27⟩, 3, 5⟩ : CapModel ℚ) ⟨none, none, some 1, 27⟩ ≠ .value v :=
  (no_length (-1000) 0 _ rfl).1 _ (by norm_num)

end Gnucap.Semi
