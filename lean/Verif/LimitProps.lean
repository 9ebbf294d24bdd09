import Verif.LimitModel
import Mathlib.Tactic.Linarith
import Mathlib.Tactic.FieldSimp
import Mathlib.Tactic.Ring
import Mathlib.Tactic.NormNum

/-!
# Voltage limiting (C52)

Specification: `Between a b x` — x lies on the way from a (old) to b (asked for), ends included.  A limiter must return something on the
way, must return what was asked for if nothing changed, and must not stand still while something was asked for.
-/
set_option linter.unusedSectionVars false
namespace Gnucap.Limit
variable {F : Type _} [Field F] [LinearOrder F] [IsStrictOrderedRing F]

/-- `x` is on the way from `a` to `b` -/
def Between (a b x : F) : Prop := (a ≤ x ∧ x ≤ b) ∨ (b ≤ x ∧ x ≤ a)

/-- **C52, gate voltage**: on the way, never standing still unless converged, converged voltages kept. -/
theorem vgs_between (vnew vold vto : F) : Between vold vnew (fetLimitVgs vnew vold vto) := by
  unfold Between fetLimitVgs
  simp only
  split_ifs <;> rcases le_total vold vnew with h | h <;> first
    | (left; constructor <;> linarith)
    | (right; constructor <;> linarith)

theorem vgs_fixed (v vto : F) : fetLimitVgs v v vto = v := by
  have := vgs_between v v vto
  rcases this with ⟨h1, h2⟩ | ⟨h1, h2⟩ <;> exact le_antisymm (by assumption) (by assumption)

theorem vgs_no_false_stop (vnew vold vto : F) (h : fetLimitVgs vnew vold vto = vold) : vnew = vold := by
  unfold fetLimitVgs at h
  simp only at h
  split_ifs at h <;> linarith

/-- the move is bounded by a function of the old voltage alone -/
theorem vgs_move_bounded (vnew vold vto : F) :
    fetLimitVgs vnew vold vto ≤ max (3 * (vold - vto) + 2) 4 + vto ∧
    min (3 * (vold - vto) - 2) (-(1/2)) + vto ≤ fetLimitVgs vnew vold vto := by
  have a1 := le_max_left (3 * (vold - vto) + 2) 4
  have a2 := le_max_right (3 * (vold - vto) + 2) 4
  have b1 := min_le_left (3 * (vold - vto) - 2) (-(1/2))
  have b2 := min_le_right (3 * (vold - vto) - 2) (-(1/2))
  unfold fetLimitVgs
  simp only
  split_ifs <;> constructor <;> linarith

/-- what was asked for is granted whenever it is close enough: limiting does not disturb the end of the iteration -/
theorem vgs_transparent (vnew vold vto : F) (h : |vnew - vold| ≤ 1 / 2) : fetLimitVgs vnew vold vto = vnew := by
  obtain ⟨h1, h2⟩ := abs_le.mp h
  unfold fetLimitVgs
  simp only
  split_ifs <;> linarith

/-- **C52, drain voltage (partial: old voltage above -0.5)**. -/
theorem vds_between_partial (vnew vold : F) (h0 : -(1/2) ≤ vold) : Between vold vnew (fetLimitVds vnew vold) := by
  unfold Between fetLimitVds
  split_ifs <;> rcases le_total vold vnew with h | h <;> first
    | (left; constructor <;> linarith)
    | (right; constructor <;> linarith)

theorem vds_fixed_partial (v : F) (h0 : -(1/2) ≤ v) : fetLimitVds v v = v := by
  have := vds_between_partial v v h0
  rcases this with ⟨h1, h2⟩ | ⟨h1, h2⟩ <;> exact le_antisymm (by assumption) (by assumption)

theorem vds_no_false_stop_partial (vnew vold : F) (h0 : -(1/2) < vold) (h : fetLimitVds vnew vold = vold) : vnew = vold := by
  unfold fetLimitVds at h
  split_ifs at h <;> linarith

/-- **C52 fails below -0.5 V**: a converged voltage is moved, by any amount ... -/
theorem vds_moves_converged (v : F) (h : v < -(1/2)) : fetLimitVds v v = -(1/2) ∧ fetLimitVds v v ≠ v := by
  have e : fetLimitVds v v = -(1/2) := by
    unfold fetLimitVds
    rw [if_neg (by linarith), if_neg (by linarith), if_pos h]
  exact ⟨e, by rw [e]; exact ne_of_gt h⟩

/-- ... and at -0.5 V it stands still whatever is asked for below: the iteration cannot leave -/
theorem vds_stuck (vnew : F) (h : vnew < -(1/2)) : fetLimitVds vnew (-(1/2)) = -(1/2) := by
  unfold fetLimitVds
  rw [if_neg (by linarith), if_neg (by linarith), if_pos h]

/-- **C52, junction: converged voltages are kept**, for every setting. -/
theorem pnj_fixed (v vt vcrit : ℝ) (hvt : 0 ≤ vt) : pnjLimit v v vt vcrit = v := by
  unfold pnjLimit
  rw [if_neg]
  rintro ⟨_, h⟩
  rw [sub_self, abs_zero] at h
  linarith

/-- small changes are granted -/
theorem pnj_transparent (vnew vold vt vcrit : ℝ) (h : |vnew - vold| ≤ 2 * vt) : pnjLimit vnew vold vt vcrit = vnew := by
  unfold pnjLimit
  rw [if_neg]
  rintro ⟨_, h'⟩
  linarith

/-- **C52, junction, upward moves**: on the way, and standing still is not possible. -/
theorem pnj_up (vnew vold vt vcrit : ℝ) (hvt : 0 < vt) (hc : vt ≤ vcrit) (hup : vold < vnew) :
    vold < pnjLimit vnew vold vt vcrit ∧ pnjLimit vnew vold vt vcrit ≤ vnew := by
  unfold pnjLimit
  split
  · rename_i h
    obtain ⟨h1, h2⟩ := h
    rw [abs_of_pos (by linarith)] at h2
    split
    · simp only
      have hx : 0 < (vnew - vold) / vt := div_pos (by linarith) hvt
      rw [if_pos (by linarith)]
      have hl : 0 < Real.log (1 + (vnew - vold) / vt) := Real.log_pos (by linarith)
      have hu : Real.log (1 + (vnew - vold) / vt) ≤ (vnew - vold) / vt := by
        have := Real.log_le_sub_one_of_pos (x := 1 + (vnew - vold) / vt) (by linarith)
        linarith
      constructor
      · have := mul_pos hvt hl; linarith
      · have := mul_le_mul_of_nonneg_left hu hvt.le
        rw [mul_div_cancel₀ _ hvt.ne'] at this
        linarith
    · rename_i hold
      have hr : 1 < vnew / vt := by rw [lt_div_iff₀ hvt]; linarith
      have hl : 0 < Real.log (vnew / vt) := Real.log_pos hr
      have hu : Real.log (vnew / vt) ≤ vnew / vt - 1 := Real.log_le_sub_one_of_pos (by linarith)
      constructor
      · have := mul_pos hvt hl; linarith
      · have := mul_le_mul_of_nonneg_left hu hvt.le
        rw [mul_sub, mul_div_cancel₀ _ hvt.ne'] at this
        linarith
  · exact ⟨hup, le_refl _⟩

/-- **C52, junction, downward moves**: in the right direction, but possibly further than asked for: it stops at `vcrit` instead. -/
theorem pnj_down (vnew vold vt vcrit : ℝ) (hvt : 0 < vt) (hc : vt ≤ vcrit) (hdn : vnew < vold) :
    pnjLimit vnew vold vt vcrit < vold ∧
      (pnjLimit vnew vold vt vcrit = vnew ∨ (pnjLimit vnew vold vt vcrit = vcrit ∧ vcrit < vnew ∧ 2 * vt < vold - vnew)) := by
  unfold pnjLimit
  split
  · rename_i h
    obtain ⟨h1, h2⟩ := h
    rw [abs_of_neg (by linarith)] at h2
    rw [if_pos (by linarith)]
    simp only
    have : (vnew - vold) / vt < -2 := by rw [div_lt_iff₀ hvt]; linarith
    rw [if_neg (by linarith)]
    exact ⟨by linarith, Or.inr ⟨rfl, h1, by linarith⟩⟩
  · exact ⟨hdn, Or.inl rfl⟩

/-- **C52 fails in the other reading ("never further than asked")**: asked to go from 10 to 5 (vt 1, vcrit 2), it goes to 2. -/
theorem pnj_overshoots : pnjLimit 5 10 1 2 = 2 := by
  unfold pnjLimit
  norm_num

/-- no false convergence at a junction -/
theorem pnj_no_false_stop (vnew vold vt vcrit : ℝ) (hvt : 0 < vt) (hc : vt ≤ vcrit) (h : pnjLimit vnew vold vt vcrit = vold) : vnew = vold := by
  rcases lt_trichotomy vnew vold with h1 | h1 | h1
  · exact absurd h (pnj_down vnew vold vt vcrit hvt hc h1).1.ne
  · exact h1
  · exact absurd h (pnj_up vnew vold vt vcrit hvt hc h1).1.ne'

example : fetLimitVgs (9 : ℚ) 1 0 = 4 ∧ fetLimitVds (20 : ℚ) 4 = 14 ∧ Between (1 : ℚ) 9 4 := by
  refine ⟨by decide +kernel, by decide +kernel, Or.inl ⟨by norm_num, by norm_num⟩⟩

example : (0 : ℝ) < 1 ∧ (1 : ℝ) ≤ 2 ∧ (3 : ℝ) < 10 ∧ pnjLimit 10 3 1 2 = 3 + 1 * Real.log 8 := by
  refine ⟨by norm_num, by norm_num, by norm_num, ?_⟩
  unfold pnjLimit; norm_num

end Gnucap.Limit
