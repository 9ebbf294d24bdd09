import Verif.IntegModel
import Mathlib.LinearAlgebra.Lagrange
import Mathlib.Algebra.Order.Field.Rat
import Mathlib.Tactic.FieldSimp
import Mathlib.Tactic.Ring
import Mathlib.Tactic.Linarith
import Mathlib.Tactic.LinearCombination
import Mathlib.Tactic.NormNum
import Mathlib.Tactic.IntervalCases
import Mathlib.Data.List.Perm.Basic
import Mathlib.Data.List.GetD

/-! # Linearisations (C34), integration (C23–C25), divided differences (C26), history (C22), truncation error (C27),
combined step request (C21) -/
set_option linter.unusedSectionVars false
namespace Gnucap.Integ

/-! ## C34 -/
section poly
variable {F : Type _} [Field F]

/-- Specification: the straight line a linearisation stands for. -/
def FPoly.eval (p : FPoly F) (t : F) : F := p.f0 + p.f1 * (t - p.x)
/-- Specification: the straight line a coefficient form stands for. -/
def CPoly.eval (p : CPoly F) (t : F) : F := p.c0 + p.c1 * t

/-- C34: both conversions preserve the line and the operating point, and are mutually inverse. -/
theorem poly_roundtrip (p : FPoly F) (q : CPoly F) :
    p.toC.toF = p ∧ q.toF.toC = q ∧ (∀ t, p.toC.eval t = p.eval t) ∧ (∀ t, q.toF.eval t = q.eval t) ∧
    p.eval p.x = p.f0 := by
  refine ⟨?_, ?_, fun t => ?_, fun t => ?_, ?_⟩
  · ext <;> simp [FPoly.toC, CPoly.toF]
  · ext <;> simp [FPoly.toC, CPoly.toF]
  · simp only [FPoly.toC, CPoly.eval, FPoly.eval]; ring
  · simp only [CPoly.toF, CPoly.eval, FPoly.eval]; ring
  · simp [FPoly.eval]

/-- C34: the arithmetic on linearisations is that of the lines (for sums: taken at the same operating point). -/
theorem poly_ops (p q : FPoly F) (c : CPoly F) (s t : F) (h : p.x = q.x) :
    (p.scale s).eval t = s * p.eval t ∧ (c.scale s).eval t = s * c.eval t ∧ p.neg.eval t = - p.eval t ∧
    (p.addC s).eval t = p.eval t + s ∧ (FPoly.subFrom s p).eval t = s - p.eval t ∧
    (p.add q).eval t = p.eval t + q.eval t ∧ (p.scale s).toC = p.toC.scale s := by
  refine ⟨?_, ?_, ?_, ?_, ?_, ?_, ?_⟩
  · simp only [FPoly.scale, FPoly.eval]; ring
  · simp only [CPoly.scale, CPoly.eval]; ring
  · simp only [FPoly.neg, FPoly.eval]; ring
  · simp only [FPoly.addC, FPoly.eval]; ring
  · simp only [FPoly.subFrom, FPoly.neg, FPoly.addC, FPoly.eval]; ring
  · simp only [FPoly.add, FPoly.eval]; rw [h]; ring
  · simp only [FPoly.scale, FPoly.toC, CPoly.scale]; ext <;> simp only; ring

/-- The product of two linearisations should have the product as value and `f·g' + f'·g` as slope.  The code's slope is
`f'·g + (f·g)·g'`. -/
theorem poly_mul_slope (p s : FPoly F) :
    (p.mul s).f0 = p.f0 * s.f0 ∧ (p.mul s).f1 = p.f1 * s.f0 + (p.f0 * s.f0) * s.f1 := by
  simp [FPoly.mul, FPoly.scale]

/-- C34 does not extend to `FPOLY1 * FPOLY1`: x² at x = 2 gets slope 6 instead of 4. -/
theorem poly_mul_wrong : ∃ p s : FPoly ℚ, p.x = s.x ∧ (p.mul s).f1 ≠ p.f1 * s.f0 + p.f0 * s.f1 :=
  ⟨⟨2, 2, 1⟩, ⟨2, 2, 1⟩, rfl, by decide +kernel⟩

/-- It is right exactly when the second factor has value 1, the first value 0, or the second slope 0. -/
theorem poly_mul_partial (p s : FPoly F) :
    (p.mul s).f1 = p.f1 * s.f0 + p.f0 * s.f1 ↔ (s.f0 = 1 ∨ p.f0 = 0 ∨ s.f1 = 0) := by
  rw [(poly_mul_slope p s).2]
  constructor
  · intro h
    have : p.f0 * (s.f1 * (s.f0 - 1)) = 0 := by linear_combination h
    rcases mul_eq_zero.mp this with h1 | h1
    · exact Or.inr (Or.inl h1)
    · rcases mul_eq_zero.mp h1 with h2 | h2
      · exact Or.inr (Or.inr h2)
      · exact Or.inl (sub_eq_zero.mp h2)
  · rintro (h | h | h) <;> rw [h] <;> ring

example : ((⟨3, 7, 2⟩ : FPoly ℚ).toC).c0 = 1 := by norm_num [FPoly.toC]

end poly

/-! ## C25 -/

/-- Specification of the table: which requests are 'only'. -/
def MethodT.isOnly : MethodT → Bool
  | .eulerOnly | .trapOnly | .gear2Only => true
  | _ => false

/-- Specification: the method a request names (nothing: the default, alternate trapezoid/gear). -/
def MethodT.names : MethodT → Method
  | .unknown => .trapgear
  | .euler | .eulerOnly => .euler
  | .trap | .trapOnly => .trap
  | .gear2 | .gear2Only => .gear
  | .trapgear => .trapgear
  | .trapeuler => .trapeuler

/-- Specification of the precedence. -/
def chosen (opt loc : MethodT) : Method :=
  if loc.isOnly then loc.names
  else if opt.isOnly then opt.names
  else if loc = .unknown then opt.names
  else loc.names

/-- C25: the whole table (9 × 9, every combination that exists) is the documented precedence: an element's own 'only' wins,
then the global 'only', then the element's own request, then the global one.  -/
theorem method_select_spec (opt loc : MethodT) : methodSelect opt loc = some (chosen opt loc) := by
  cases opt <;> cases loc <;> rfl

/-- C25: in the first dynamic step (when the two previous times coincide) Euler replaces it, in both places that look. -/
theorem first_step_euler {F : Type _} [Field F] [DecidableEq F] (time : ℕ → F) (m : Method) :
    (time 1 = time 2 → usedMethod time m = .euler) ∧ (time 1 ≠ time 2 → usedMethod time m = m) :=
  ⟨fun h => if_pos h, fun h => if_neg h⟩

/-! ## C23 -/
section integ
variable {F : Type _} [Field F] [LinearOrder F] [IsStrictOrderedRing F]

/-- the charge history was sampled from the function `Q` -/
def Sampled (Q : F → F) (q : ℕ → FPoly F) (time : ℕ → F) : Prop := ∀ k, k < keep → (q k).f0 = Q (time k)

/-- C23: a charge that is linear in time gives its exact derivative under every method, (for the trapezoid rule provided the
previous current was exact), for any spacing of the times. -/
theorem differentiate_linear (a b : F) (q i : ℕ → FPoly F) (time : ℕ → F) (m : Method)
    (hq : Sampled (fun t => a + b * t) q time) (ht : time 1 < time 0)
    (hi : usedMethod time m = .trap → (i 1).f0 = b) :
    (differentiate .dynamic q i time m).f0 = b := by
  have h0 := hq 0 (by decide); have h1 := hq 1 (by decide); have h2 := hq 2 (by decide)
  have hd : time 0 - time 1 ≠ 0 := sub_ne_zero.mpr (ne_of_gt ht)
  simp only at h0 h1 h2
  unfold differentiate
  by_cases he : time 1 = time 2
  · have : usedMethod time m = .euler := if_pos he
    simp only [this, h0, h1]
    field_simp
    ring
  · have hu : usedMethod time m = m := if_neg he
    have hd2 : time 1 - time 2 ≠ 0 := sub_ne_zero.mpr he
    rw [hu] at hi ⊢
    cases m
    · simp only [h0, h1, h2]; field_simp; ring
    · simp only [h0, h1]; field_simp; ring
    · simp only [h0, h1, hi rfl]; field_simp; ring
    · simp only [h0, h1, h2]; field_simp; ring
    · simp only [h0, h1]; field_simp; ring

/-- C23: the trapezoid rule is exact for quadratic charges if the previous current was exact. -/
theorem differentiate_trap_quadratic (a b c : F) (q i : ℕ → FPoly F) (time : ℕ → F)
    (hq : Sampled (fun t => a + b * t + c * t^2) q time) (ht : time 1 < time 0) (h12 : time 1 ≠ time 2)
    (hi : (i 1).f0 = b + 2 * c * time 1) :
    (differentiate .dynamic q i time .trap).f0 = b + 2 * c * time 0 := by
  have h0 := hq 0 (by decide); have h1 := hq 1 (by decide)
  simp only at h0 h1
  have hd : time 0 - time 1 ≠ 0 := sub_ne_zero.mpr (ne_of_gt ht)
  unfold differentiate
  simp only [usedMethod, if_neg h12, h0, h1, hi]
  field_simp
  ring

/-- C23: what the second order (gear) formula really gives on a quadratic charge: the derivative plus half the quadratic
coefficient times the difference of the steps. -/
theorem differentiate_gear_error (a b c : F) (q i : ℕ → FPoly F) (time : ℕ → F)
    (hq : Sampled (fun t => a + b * t + c * t^2) q time) (ht : time 1 < time 0) (h12 : time 2 < time 1) :
    (differentiate .dynamic q i time .gear).f0 =
      (b + 2 * c * time 0) + c / 2 * ((time 1 - time 2) - (time 0 - time 1)) := by
  have h0 := hq 0 (by decide); have h1 := hq 1 (by decide); have h2 := hq 2 (by decide)
  simp only at h0 h1 h2
  have hd : time 0 - time 1 ≠ 0 := sub_ne_zero.mpr (ne_of_gt ht)
  have hd2 : time 1 - time 2 ≠ 0 := sub_ne_zero.mpr (ne_of_gt h12)
  unfold differentiate
  simp only [usedMethod, if_neg (ne_of_gt h12), h0, h1, h2]
  field_simp
  ring

/-- C23 for the gear formula holds for equal steps only.
Missing from the full claim: unequal steps, where it is false (`differentiate_gear_wrong`). -/
theorem differentiate_gear_quadratic_partial (a b c : F) (q i : ℕ → FPoly F) (time : ℕ → F)
    (hq : Sampled (fun t => a + b * t + c * t^2) q time) (ht : time 1 < time 0) (heq : time 0 - time 1 = time 1 - time 2) :
    (differentiate .dynamic q i time .gear).f0 = b + 2 * c * time 0 := by
  rw [differentiate_gear_error a b c q i time hq ht (by linarith), heq]
  ring

/-- C23 is false for the gear formula with unequal steps: q = t² at times 0, 1, 3 has derivative 6 at 3, the code gives 11/2. -/
theorem differentiate_gear_wrong :
    ∃ (q i : ℕ → FPoly ℚ) (time : ℕ → ℚ), Sampled (fun t => t^2) q time ∧ time 1 < time 0 ∧ time 2 < time 1 ∧
      (differentiate .dynamic q i time .gear).f0 ≠ 2 * time 0 := by
  let time : ℕ → ℚ := fun k => if k = 0 then 3 else if k = 1 then 1 else 0
  refine ⟨fun k => ⟨0, (time k)^2, 0⟩, fun _ => ⟨0, 0, 0⟩, time, fun k _ => rfl, by norm_num [time], by norm_num [time], ?_⟩
  norm_num [differentiate, usedMethod, time]

/-- hypotheses of the exactness theorems are met by t² sampled at 3, 2, 1, 0, 0 -/
example : Sampled (fun t : ℚ => 0 + 0 * t + 1 * t^2) (fun k => ⟨0, ((3 - k : ℕ) : ℚ)^2, 0⟩) (fun k => ((3 - k : ℕ) : ℚ)) := by
  intro k hk; unfold keep at hk; interval_cases k <;> norm_num

/-- static analysis: no current; restore: the stored current (C23) -/
theorem differentiate_other (q i : ℕ → FPoly F) (time : ℕ → F) (m : Method) :
    differentiate .static q i time m = ⟨(q 0).x, 0, 0⟩ ∧ differentiate .restore q i time m = i 0 := ⟨rfl, rfl⟩

/-! ## C24 -/

/-- C24: with the element's `_dt` in step with its times (see `hist_run`), the conductance returned by `tr_c_to_g` is the
ratio of the change of the companion current to the change of voltage, for any two charges on the line with slope `c`;
and it is the slope stored by `differentiate`. -/
theorem companion_is_derivative (q i : ℕ → FPoly F) (time : ℕ → F) (m : Method) (dt c g v v' Q Q' : F)
    (hdt : dt = time 0 - time 1) (hQ : Q' - Q = c * (v' - v)) :
    let q0 : ℕ → FPoly F := fun k => if k = 0 then ⟨v, Q, c⟩ else q k
    let q1 : ℕ → FPoly F := fun k => if k = 0 then ⟨v', Q', c⟩ else q k
    (differentiate .dynamic q1 i time m).f0 - (differentiate .dynamic q0 i time m).f0
        = trCToG .dynamic time dt m c g * (v' - v) ∧
    (differentiate .dynamic q0 i time m).f1 = trCToG .dynamic time dt m c g ∧
    (differentiate .dynamic q0 i time m).x = v := by
  intro q0 q1
  have hQ' : Q' = Q + c * (v' - v) := by linear_combination hQ
  subst hdt hQ'
  simp only [differentiate, trCToG, q0, q1, if_true, one_ne_zero, if_false, (by decide : (2 : ℕ) ≠ 0)]
  generalize usedMethod time m = um
  cases um <;> refine ⟨by ring, by first | rfl | ring, rfl⟩

/-- C24: for a constant capacitance the stamped companion (`_m0`) reproduces the computed current at the point of
linearisation and has the conductance `tr_c_to_g(C)` as its slope; in between it follows the integration formula exactly. -/
theorem capacitor_companion (C v v' : F) (y i : ℕ → FPoly F) (time : ℕ → F) (m : Method) (dt g : F) (hdt : dt = time 0 - time 1) :
    let r := capDoTr .dynamic C v y i time m
    r.2.eval v = r.1.f0 ∧ r.2.c1 = trCToG .dynamic time dt m C g ∧
    r.2.eval v' = (capDoTr .dynamic C v' y i time m).1.f0 := by
  intro r
  have h := companion_is_derivative y i time m dt C g v v' (v * C) (v' * C) hdt (by ring)
  simp only at h
  obtain ⟨h1, h2, h3⟩ := h
  have e1 : r.1 = differentiate .dynamic (fun k => if k = 0 then ⟨v, v * C, C⟩ else y k) i time m := rfl
  have e2 : r.2 = r.1.toC := rfl
  have e3 : (capDoTr .dynamic C v' y i time m).1 = differentiate .dynamic (fun k => if k = 0 then ⟨v', v' * C, C⟩ else y k) i time m := rfl
  have hx : r.1.x = v := by rw [e1, h3]
  refine ⟨?_, ?_, ?_⟩
  · rw [e2]; simp only [FPoly.toC, CPoly.eval, hx]; ring
  · rw [e2]; simp only [FPoly.toC]; rw [e1, h2]
  · rw [e3, e2]
    simp only [FPoly.toC, CPoly.eval, hx]
    rw [← e1] at h1 h2
    rw [h2]
    linear_combination -h1

example : (capDoTr .dynamic (2 : ℚ) 5 (fun _ => ⟨3, 6, 2⟩) (fun _ => ⟨0, 0, 0⟩) (fun k => if k = 0 then 1 else 0) .trap).1.f0 = 4 := by
  norm_num [capDoTr, differentiate, usedMethod]

end integ

/-! ## C26 -/
section dd
open Polynomial
variable {F : Type _} [Field F] [DecidableEq F]

theorem ddPass (n d : ℕ) (hd : 1 ≤ d) (t c : ℕ → F) :
    forDown (fun i c => ddStep t d i c) d (n - d) c =
      fun j => if d ≤ j ∧ j < n then (d : F) * (c (j - 1) - c j) / (t (j - d) - t j) else c j := by
  have := forDown_inv (lo := d) (f := fun i c => ddStep t d i c)
    (P := fun k s => s = fun j => if d + k ≤ j ∧ j < n then (d : F) * (c (j - 1) - c j) / (t (j - d) - t j) else c j)
    (n - d) c ?_ ?_
  · simpa using this
  · funext j; rw [if_neg (by omega)]
  · intro k s hk hs
    subst hs
    funext j
    simp only [ddStep]
    by_cases hj : j = d + k
    · subst hj
      have n1 : ¬ (d + (k + 1) ≤ d + k - 1 ∧ d + k - 1 < n) := by omega
      have n2 : ¬ (d + (k + 1) ≤ d + k ∧ d + k < n) := by omega
      have n3 : d + k ≤ d + k ∧ d + k < n := by omega
      rw [if_pos rfl, if_neg n1, if_neg n2, if_pos n3]
    · rw [if_neg hj]
      by_cases h2 : d + (k + 1) ≤ j ∧ j < n
      · rw [if_pos h2, if_pos (by omega)]
      · rw [if_neg h2, if_neg (by omega)]

/-- Leading coefficient of the polynomial interpolating the points `lo … j`. -/
noncomputable def lead (t f : ℕ → F) (lo j : ℕ) : F := (Lagrange.interpolate (Finset.Icc lo j) t f).coeff (j - lo)

theorem lead_self (t f : ℕ → F) (j : ℕ) : lead t f j j = f j := by
  simp [lead, Finset.Icc_self]

theorem lead_succ (t f : ℕ → F) (lo j : ℕ) (h : lo < j) (hinj : Set.InjOn t (Finset.Icc lo j)) :
    lead t f lo j = (lead t f lo (j - 1) - lead t f (lo + 1) j) / (t lo - t j) := by
  have hlo : lo ∈ Finset.Icc lo j := by simp; omega
  have hj : j ∈ Finset.Icc lo j := by simp; omega
  have hne : t lo - t j ≠ 0 := sub_ne_zero.mpr (fun he => by have := hinj hlo hj he; omega)
  have key := Lagrange.interpolate_eq_add_interpolate_erase (r := f) hinj hlo hj (by omega)
  have e1 : (Finset.Icc lo j).erase j = Finset.Icc lo (j - 1) := by ext x; simp; omega
  have e2 : (Finset.Icc lo j).erase lo = Finset.Icc (lo + 1) j := by ext x; simp only [Finset.mem_erase, Finset.mem_Icc]; omega
  have c1 : ((Finset.Icc lo j).card - 1) = j - lo := by rw [Nat.card_Icc]; omega
  have d1 := Lagrange.degree_interpolate_erase_lt (r := f) hinj hj
  have d2 := Lagrange.degree_interpolate_erase_lt (r := f) hinj hlo
  rw [e1, c1] at d1
  rw [e2, c1] at d2
  rw [e1, e2] at key
  have z1 : (Lagrange.interpolate (Finset.Icc lo (j - 1)) t f).coeff (j - lo) = 0 := coeff_eq_zero_of_degree_lt d1
  have z2 : (Lagrange.interpolate (Finset.Icc (lo + 1) j) t f).coeff (j - lo) = 0 := coeff_eq_zero_of_degree_lt d2
  unfold lead
  rw [key]
  have e : j - lo = (j - 1 - lo) + 1 := by omega
  have e' : j - (lo + 1) = j - 1 - lo := by omega
  rw [e'] 
  rw [e] at z1 z2 ⊢
  generalize Lagrange.interpolate (Finset.Icc lo (j - 1)) t f = A at *
  generalize Lagrange.interpolate (Finset.Icc (lo + 1) j) t f = B at *
  have hA : (A * Lagrange.basisDivisor (t lo) (t j)).coeff (j - 1 - lo + 1) = A.coeff (j - 1 - lo) * (t lo - t j)⁻¹ := by
    unfold Lagrange.basisDivisor
    rw [mul_left_comm, coeff_C_mul, mul_sub, coeff_sub, coeff_mul_X, coeff_mul_C, z1]; ring
  have hB : (B * Lagrange.basisDivisor (t j) (t lo)).coeff (j - 1 - lo + 1) = B.coeff (j - 1 - lo) * (t j - t lo)⁻¹ := by
    unfold Lagrange.basisDivisor
    rw [mul_left_comm, coeff_C_mul, mul_sub, coeff_sub, coeff_mul_X, coeff_mul_C, z2]; ring
  rw [coeff_add, hA, hB]
  have hne' : t j - t lo ≠ 0 := by intro h0; apply hne; linear_combination -h0
  field_simp
  rw [show t j - t lo = -(t lo - t j) by ring]
  field_simp
  ring

theorem derivatives_lead (n : ℕ) (t f : ℕ → F) (K : ℕ) (hK : K < n) (hinj : Set.InjOn t (Finset.Icc 0 K)) :
    ∀ j, j ≤ K → derivatives n t f j = (j.factorial : F) * lead t f 0 j := by
  have key := forRange_inv (lo := 1) (hi := n) (s := f)
    (f := fun d c => forDown (fun i c => ddStep t d i c) d (n - d) c)
    (P := fun d (c : ℕ → F) => ∀ j, j ≤ K → c j = ((min j (d - 1)).factorial : F) * lead t f (j - min j (d - 1)) j)
    (by omega) ?_ ?_
  · intro j hj
    have := key j hj
    rw [min_eq_left (by omega), Nat.sub_self] at this
    exact this
  · intro j _; simp [lead_self]
  · intro d c h1 h2 ih j hj
    rw [ddPass n d h1]
    simp only
    by_cases hdj : d ≤ j
    · rw [if_pos ⟨hdj, by omega⟩]
      have a := ih (j - 1) (by omega)
      have b := ih j hj
      rw [min_eq_right (by omega)] at a b
      have e1 : min j (d + 1 - 1) = d := by omega
      rw [e1]
      have hi : Set.InjOn t (Finset.Icc (j - d) j) := hinj.mono (by intro x hx; simp at hx ⊢; omega)
      rw [lead_succ t f (j - d) j (by omega) hi]
      have e2 : j - 1 - (d - 1) = j - d := by omega
      have e3 : j - (d - 1) = j - d + 1 := by omega
      rw [e2] at a
      rw [e3] at b
      rw [a, b]
      have e4 : (d.factorial : F) = d * ((d - 1).factorial : F) := by
        rw [← Nat.mul_factorial_pred (by omega : d ≠ 0)]; push_cast; ring
      rw [e4]
      ring
    · rw [if_neg (by omega), ih j hj]
      have : min j (d + 1 - 1) = min j (d - 1) := by omega
      rw [this]

/-- C26: entry `k` of the result is the `k`-th derivative (a constant) of the polynomial of degree ≤ k through the `k+1`
newest points, whatever the spacing, as long as those times are distinct.  Later entries may be degenerate. -/
theorem derivatives_interpolant (n : ℕ) (t f : ℕ → F) (k : ℕ) (hk : k < n) (hinj : Set.InjOn t (Finset.Icc 0 k)) (P : F[X])
    (hP : P.natDegree ≤ k) (hv : ∀ i, i ≤ k → P.eval (t i) = f i) (x : F) :
    derivatives n t f k = (derivative^[k] P).eval x := by
  have hcard : (Finset.Icc 0 k).card = k + 1 := by simp
  have hPi : P = Lagrange.interpolate (Finset.Icc 0 k) t f := by
    refine Lagrange.eq_interpolate_of_eval_eq f hinj ?_ ?_
    · rw [hcard]
      exact lt_of_le_of_lt degree_le_natDegree (by exact_mod_cast Nat.lt_succ_of_le hP)
    · intro i hi; simp at hi; exact hv i hi
  rw [derivatives_lead n t f k hk hinj k (le_refl _)]
  unfold lead
  rw [← hPi, Nat.sub_zero]
  have hdeg : (derivative^[k] P).natDegree ≤ 0 := le_trans (natDegree_iterate_derivative P k) (by omega)
  rw [eq_C_of_natDegree_le_zero hdeg, eval_C, coeff_iterate_derivative, Nat.zero_add, Nat.descFactorial_self, nsmul_eq_mul]

/-- C26: for samples of a polynomial of degree at most `k`, entry `k` is its `k`-th derivative; of degree less than `k`, 0. -/
theorem derivatives_polynomial (n : ℕ) (t : ℕ → F) (k : ℕ) (hk : k < n) (hinj : Set.InjOn t (Finset.Icc 0 k)) (P : F[X])
    (hP : P.natDegree ≤ k) (x : F) :
    derivatives n t (fun i => P.eval (t i)) k = (derivative^[k] P).eval x ∧
    (P.natDegree < k → derivatives n t (fun i => P.eval (t i)) k = 0) := by
  have h := derivatives_interpolant n t (fun i => P.eval (t i)) k hk hinj P hP (fun _ _ => rfl) x
  refine ⟨h, fun hlt => ?_⟩
  rw [h, iterate_derivative_eq_zero hlt, eval_zero]

/-- t³ sampled at 4, 2, 1, 0: the third derivative is 6 -/
example : derivatives 4 (fun k => if k = 0 then (4 : ℚ) else if k = 1 then 2 else if k = 2 then 1 else 0)
    (fun k => if k = 0 then (64 : ℚ) else if k = 1 then 8 else if k = 2 then 1 else 0) 3 = 6 := by
  decide +kernel

end dd

/-! ## C22 -/
section hist
variable {F : Type _} [Field F] [LinearOrder F] [IsStrictOrderedRing F]

theorem shift_spec {α : Type _} (a : ℕ → α) (j : ℕ) : shift a j = if 1 ≤ j ∧ j < keep then a (j - 1) else a j := by
  have := forDown_inv (lo := 1) (f := fun i (a : ℕ → α) => fun j => if j = i then a (i - 1) else a j)
    (P := fun k s => s = fun j => if 1 + k ≤ j ∧ j < keep then a (j - 1) else a j) (keep - 1) a ?_ ?_
  · unfold shift; rw [this]
  · funext j; rw [if_neg (by unfold keep; omega)]
  · intro k s hk hs
    subst hs
    funext j
    unfold keep at hk
    by_cases hj : j = 1 + k
    · subst hj
      simp only [if_true]
      rw [if_neg (by omega), if_pos (by unfold keep; omega)]
    · simp only [hj, if_false]
      by_cases h2 : 1 + (k + 1) ≤ j ∧ j < keep
      · rw [if_pos h2, if_pos (by omega)]
      · rw [if_neg h2, if_neg (by omega)]

/-- What the step control asks for: a step forward from an accepted point, or a retry of the rejected one. -/
inductive Move (F : Type _) where
  | forward (t : F)
  | retry (t : F)

/-- Specification of the history: current time and the accepted times, newest first. -/
structure Spec (F : Type _) where
  cur : F
  past : List F

/-- Specification: a forward step makes the current time an accepted one; a retry replaces it. -/
def Spec.move (s : Spec F) : Move F → Spec F
  | .forward t => ⟨t, s.cur :: s.past⟩
  | .retry t => ⟨t, s.past⟩

/-- Legal moves: forward is later than now; a retry is not later than the rejected time and after the last accepted one. -/
def Spec.Legal (s : Spec F) : Move F → Prop
  | .forward t => 0 < t ∧ s.cur < t
  | .retry t => t ≤ s.cur ∧ s.past.headD 0 < t ∧ s.past ≠ []

/-- entry `j` of the history, 0 when there is none -/
def Spec.at (s : Spec F) (j : ℕ) : F := (s.cur :: s.past).getD j 0

/-- the element's times and the simulator's `last_iter_time` represent the specification's history -/
structure Rep (s : Spec F) (h : Hist F) (last : F) : Prop where
  times : ∀ j, j < keep → h.time j = s.at j
  last : last = s.cur
  dt : s.past ≠ [] → h.dt = h.time 0 - h.time 1

/-- the times are positive and strictly decreasing into the past, down to the 0 of the operating point -/
def Spec.Ordered (s : Spec F) : Prop := (s.cur :: s.past).Pairwise (· > ·) ∧ ∀ t ∈ s.cur :: s.past, 0 ≤ t

theorem ordered_move {s : Spec F} (ho : s.Ordered) (m : Move F) (hl : s.Legal m) : (s.move m).Ordered := by
  obtain ⟨hp, hz⟩ := ho
  cases m with
  | forward t =>
    obtain ⟨h1, h2⟩ := hl
    refine ⟨List.pairwise_cons.mpr ⟨?_, hp⟩, ?_⟩
    · intro a ha
      rcases List.mem_cons.mp ha with rfl | h
      · exact h2
      · exact lt_trans ((List.pairwise_cons.mp hp).1 a h) h2
    · intro a ha
      rcases List.mem_cons.mp ha with rfl | h
      · exact le_of_lt h1
      · exact hz a h
  | retry t =>
    obtain ⟨h1, h2, h3⟩ := hl
    cases hpast : s.past with
    | nil => exact absurd hpast h3
    | cons b l =>
      rw [hpast] at hp hz h2
      simp only [List.headD_cons] at h2
      have hb := List.pairwise_cons.mp (List.pairwise_cons.mp hp).2
      simp only [Spec.move, hpast]
      refine ⟨List.pairwise_cons.mpr ⟨?_, (List.pairwise_cons.mp hp).2⟩, ?_⟩
      · intro a ha
        rcases List.mem_cons.mp ha with rfl | h
        · exact h2
        · exact lt_trans (hb.1 a h) h2
      · intro a ha
        rcases List.mem_cons.mp ha with rfl | h
        · exact le_of_lt (lt_of_le_of_lt (hz b (by simp)) h2)
        · exact hz a (List.mem_cons_of_mem _ h)

/-- the time a move goes to -/
def Move.to : Move F → F
  | .forward t => t
  | .retry t => t

theorem rep_move {s : Spec F} {h : Hist F} {last : F} (hr : Rep s h last) (ho : s.Ordered) (m : Move F) (hl : s.Legal m) :
    Rep (s.move m) (advanceTime m.to last h).1 (advanceTime m.to last h).2 := by
  cases m with
  | forward t =>
    obtain ⟨h1, h2⟩ := hl
    have e : advanceTime (Move.forward t).to last h = (trAdvance t h, t) := by
      show ((if 0 < t then (if last < t then trAdvance t h else trRegress t h) else h), t) = _
      rw [if_pos h1, if_pos (by rw [hr.last]; exact h2)]
    rw [e]
    refine ⟨?_, rfl, ?_⟩
    · intro j hj
      simp only [trAdvance, Spec.move, Spec.at]
      by_cases h0 : j = 0
      · subst h0; simp
      · rw [if_neg h0, shift_spec, if_pos ⟨by omega, hj⟩, hr.times (j - 1) (by omega)]
        obtain ⟨k, rfl⟩ : ∃ k, j = k + 1 := ⟨j - 1, by omega⟩
        simp [Spec.at]
    · intro _; simp [trAdvance]
  | retry t =>
    obtain ⟨h1, h2, h3⟩ := hl
    have hpos : 0 < t := by
      cases hpast : s.past with
      | nil => exact absurd hpast h3
      | cons b l =>
        rw [hpast] at h2
        exact lt_of_le_of_lt (ho.2 b (by rw [hpast]; simp)) h2
    have e : advanceTime (Move.retry t).to last h = (trRegress t h, t) := by
      show ((if 0 < t then (if last < t then trAdvance t h else trRegress t h) else h), t) = _
      rw [if_pos hpos, if_neg (by rw [hr.last]; exact not_lt.mpr h1)]
    rw [e]
    refine ⟨?_, rfl, ?_⟩
    · intro j hj
      simp only [trRegress, Spec.move, Spec.at]
      by_cases h0 : j = 0
      · subst h0; simp
      · rw [if_neg h0, hr.times j hj]
        obtain ⟨k, rfl⟩ : ∃ k, j = k + 1 := ⟨j - 1, by omega⟩
        simp [Spec.at]
    · intro _; simp [trRegress]

/-- a sequence of moves, each legal when made -/
def LegalRun : Spec F → List (Move F) → Prop
  | _, [] => True
  | s, m :: ms => s.Legal m ∧ LegalRun (s.move m) ms

/-- the element, driven by `advance_time` -/
def histRun (h : Hist F) (last : F) : List (Move F) → Hist F × F
  | [] => (h, last)
  | m :: ms => histRun (advanceTime m.to last h).1 (advanceTime m.to last h).2 ms

/-- C22: from the start of a transient analysis, through any sequence of forward steps and retries, the element's recorded
times are exactly the current time and the (newest four) accepted times, newest first, with rejected times replaced and
not kept; `_dt` is the difference of the first two. -/
theorem hist_run (y0 : FPoly F) (nv : F) (ms : List (Move F)) (hl : LegalRun ⟨0, []⟩ ms) :
    let s := ms.foldl Spec.move ⟨0, []⟩
    Rep s (histRun (trBegin y0 nv) 0 ms).1 (histRun (trBegin y0 nv) 0 ms).2 ∧ s.Ordered := by
  have gen : ∀ (ms : List (Move F)) (s : Spec F) (h : Hist F) (last : F), Rep s h last → s.Ordered → LegalRun s ms →
      Rep (ms.foldl Spec.move s) (histRun h last ms).1 (histRun h last ms).2 ∧ (ms.foldl Spec.move s).Ordered := by
    intro ms
    induction ms with
    | nil => intro s h last hr ho _; exact ⟨hr, ho⟩
    | cons m ms ih =>
      intro s h last hr ho hl
      exact ih _ _ _ (rep_move hr ho m hl.1) (ordered_move ho m hl.1) hl.2
  refine gen ms _ _ _ ⟨?_, rfl, fun h => absurd rfl h⟩ ⟨by simp, by simp⟩ hl
  intro j _
  cases j with
  | zero => simp [trBegin, Spec.at]
  | succ k => simp [trBegin, Spec.at]

/-- C22: consequently the recorded times strictly decrease towards the past as long as they are not the initial 0. -/
theorem hist_decreasing (y0 : FPoly F) (nv : F) (ms : List (Move F)) (hl : LegalRun ⟨0, []⟩ ms) (j : ℕ) (hj : j + 1 < keep) :
    let h := (histRun (trBegin y0 nv) 0 ms).1
    h.time (j + 1) < h.time j ∨ (h.time j = 0 ∧ h.time (j + 1) = 0) := by
  intro h
  obtain ⟨hr, hp, hz⟩ := hist_run y0 nv ms hl
  rw [hr.times j (by omega), hr.times (j + 1) hj]
  generalize List.foldl Spec.move (⟨0, []⟩ : Spec F) ms = s at *
  have hlast : ∀ (ms : List (Move F)) (s : Spec F), (s.cur :: s.past).getLast? = some 0 → s.past = [] ∨ s.past.getLast? = some 0 → LegalRun s ms →
      ((ms.foldl Spec.move s).past = [] ∧ (ms.foldl Spec.move s).cur = 0) ∨ (ms.foldl Spec.move s).past.getLast? = some 0 := by
    intro ms
    induction ms with
    | nil =>
      intro s h1 h2 _
      rcases h2 with h2 | h2
      · left; rw [h2] at h1; exact ⟨h2, by simpa using h1⟩
      · right; exact h2
    | cons m ms ih =>
      intro s h1 h2 hl
      refine ih (s.move m) ?_ ?_ hl.2
      · cases m with
        | forward t => simpa [Spec.move] using h1
        | retry t =>
          obtain ⟨_, _, h3⟩ := hl.1
          simp only [Spec.move]
          rw [List.getLast?_cons_of_ne_nil h3]
          rcases h2 with h2 | h2
          · exact absurd h2 h3
          · exact h2
      · right
        cases m with
        | forward t => exact h1
        | retry t =>
          obtain ⟨_, _, h3⟩ := hl.1
          rcases h2 with h2 | h2
          · exact absurd h2 h3
          · exact h2
  unfold Spec.at
  by_cases h1 : j + 1 < (s.cur :: s.past).length
  · left
    have := List.pairwise_iff_getElem.mp hp j (j + 1) (by omega) h1 (by omega)
    rw [List.getD_eq_getElem _ _ h1, List.getD_eq_getElem _ _ (by omega)]
    exact this
  · rw [List.getD_eq_default _ _ (by omega : (s.cur :: s.past).length ≤ j + 1)]
    by_cases h2 : j < (s.cur :: s.past).length
    · rw [List.getD_eq_getElem _ _ h2]
      have := hz _ (List.getElem_mem h2)
      rcases lt_or_eq_of_le this with h3 | h3
      · exact Or.inl h3
      · exact Or.inr ⟨h3.symm, rfl⟩
    · right; exact ⟨List.getD_eq_default _ _ (by omega), rfl⟩

example : LegalRun (⟨0, []⟩ : Spec ℚ) [.forward 2, .retry 1, .forward 3, .forward 5, .retry 4] := by
  norm_num [LegalRun, Spec.Legal, Spec.move]; decide

example : ((histRun (trBegin ⟨0, 0, 0⟩ 0) 0 [.forward 2, .retry 1, .forward 3, .forward (5 : ℚ), .retry 4]).1.time 1) = 3 := by
  decide +kernel

end hist

/-! ## C27 -/

theorem errorDeriv_spec {F : Type _} [LinearOrder F] (ord : ℤ) (time : ℕ → F) (h01 : time 1 < time 0) (hord : 0 ≤ ord) :
    let e := errorDeriv ord time
    1 ≤ e ∧ e < keep ∧ (e : ℤ) ≤ ord + 1 ∧ (∀ i, i < e → time (i + 1) < time i) := by
  intro e
  let e0 : ℕ := if ord ≥ (keep : ℤ) - 2 then keep - 1 else if ord < 0 then 1 else (ord + 1).toNat
  have he0 : 1 ≤ e0 ∧ e0 < keep ∧ (e0 : ℤ) ≤ ord + 1 := by
    show 1 ≤ (if ord ≥ (keep : ℤ) - 2 then keep - 1 else if ord < 0 then 1 else (ord + 1).toNat) ∧
      (if ord ≥ (keep : ℤ) - 2 then keep - 1 else if ord < 0 then 1 else (ord + 1).toNat) < keep ∧
      (((if ord ≥ (keep : ℤ) - 2 then keep - 1 else if ord < 0 then 1 else (ord + 1).toNat) : ℕ) : ℤ) ≤ ord + 1
    unfold keep
    split
    · omega
    · split <;> omega
  have hdef : e = forDown (fun i e => if time (i - 1) ≤ time i then i - 1 else e) 1 e0 e0 := rfl
  have key := forDown_inv (lo := 1) (f := fun i e => if time (i - 1) ≤ time i then i - 1 else e)
    (P := fun k e => e ≤ e0 ∧ k ≤ e ∧ ∀ i, k ≤ i → i < e → time (i + 1) < time i) e0 e0
    ⟨le_refl _, le_refl _, fun i h1 h2 => by omega⟩ ?_
  · rw [← hdef] at key
    obtain ⟨k1, _, k3⟩ := key
    refine ⟨?_, by omega, by omega, fun i hi => k3 i (by omega) hi⟩
    by_contra h0
    -- e = 0 could only come from i = 1 with time 0 ≤ time 1
    have key2 := forDown_inv (lo := 1) (f := fun i e => if time (i - 1) ≤ time i then i - 1 else e)
      (P := fun k e => 1 ≤ e) e0 e0 he0.1 ?_
    · rw [← hdef] at key2; exact h0 key2
    · intro k t hk ht
      simp only [Nat.add_sub_cancel_left]
      split
      · rename_i hc
        cases k with
        | zero => exact absurd hc (not_le.mpr h01)
        | succ k => omega
      · exact ht
  · intro k t hk ⟨h1, h2, h3⟩
    simp only [Nat.add_sub_cancel_left]
    split
    · exact ⟨by omega, le_refl _, fun i h4 h5 => by omega⟩
    · rename_i hc
      refine ⟨h1, by omega, fun i h4 h5 => ?_⟩
      by_cases hik : i = k
      · subst hik
        rw [Nat.add_comm i 1]; exact not_le.mp hc
      · exact h3 i (by omega) h5

/-- Sensible options: tolerances, minimum step and the constant NEVER positive. -/
structure TeOpt.Ok (o : TeOpt) : Prop where
  chgtol : 0 < o.chgtol
  trtol : 0 < o.trtol
  dtmin : 0 < o.dtmin
  never : 0 < o.never

/-- C27: the step computed from the truncation error is always positive. -/
theorem truncError_pos (o : TeOpt) (ok : o.Ok) (ord : ℤ) (ef : ℝ) (hef : 0 < ef) (time : ℕ → ℝ) (q : ℕ → FPoly ℝ) :
    0 < truncError o ord ef time q := by
  unfold truncError
  split
  · exact ok.never
  · simp only
    split
    · exact ok.never
    · rename_i hc
      have hden : 0 < ef * |derivatives keep time (fun i => (q i).f0) (errorDeriv ord time)| := mul_pos hef (abs_pos.mpr hc)
      have htol : 0 < o.trtol * max o.chgtol (o.reltol * max |(q 0).f0| |(q 1).f0|) :=
        mul_pos ok.trtol (lt_of_lt_of_le ok.chgtol (le_max_left _ _))
      have hq := div_pos htol hden
      split
      · exact hq
      · exact Real.sqrt_pos.mpr hq
      · exact Real.rpow_pos_of_pos hq _
      · exact Real.rpow_pos_of_pos hq _

/-- C27: the step asked for is the one whose error term (error factor times the derivative times the power of the step) equals the
tolerance: `trtol` times the charge tolerance. -/
theorem truncError_meets_tolerance (o : TeOpt) (ok : o.Ok) (ord : ℤ) (hord : 0 ≤ ord) (ef : ℝ) (hef : 0 < ef) (time : ℕ → ℝ)
    (q : ℕ → FPoly ℝ) (h0 : 0 < time 0) (h01 : time 1 < time 0)
    (hc : derivatives keep time (fun i => (q i).f0) (errorDeriv ord time) ≠ 0) :
    ef * |derivatives keep time (fun i => (q i).f0) (errorDeriv ord time)| * truncError o ord ef time q ^ errorDeriv ord time =
      o.trtol * max o.chgtol (o.reltol * max |(q 0).f0| |(q 1).f0|) := by
  have he := (errorDeriv_spec ord time h01 hord).1
  have hden : 0 < ef * |derivatives keep time (fun i => (q i).f0) (errorDeriv ord time)| := mul_pos hef (abs_pos.mpr hc)
  have htol : 0 < o.trtol * max o.chgtol (o.reltol * max |(q 0).f0| |(q 1).f0|) :=
    mul_pos ok.trtol (lt_of_lt_of_le ok.chgtol (le_max_left _ _))
  have hq := div_pos htol hden
  have key : truncError o ord ef time q ^ errorDeriv ord time =
      (o.trtol * max o.chgtol (o.reltol * max |(q 0).f0| |(q 1).f0|)) /
        (ef * |derivatives keep time (fun i => (q i).f0) (errorDeriv ord time)|) := by
    unfold truncError
    rw [if_neg (not_le.mpr h0)]
    simp only
    rw [if_neg hc]
    generalize derivatives keep time (fun i => (q i).f0) (errorDeriv ord time) = d at *
    generalize errorDeriv ord time = e at *
    split
    · rw [pow_one]
    · exact Real.sq_sqrt hq.le
    · have := Real.rpow_inv_natCast_pow hq.le (n := 3) (by norm_num)
      rw [one_div]; exact_mod_cast this
    · have := Real.rpow_inv_natCast_pow hq.le (n := e) (by omega)
      rw [one_div]; exact this
  rw [key, mul_div_cancel₀ _ hden.ne']

/-- C27: the time asked for is later than the previous accepted time, by at least the minimum step (or is NEVER);
it is a rejection (not later than now) only when the wanted step is shorter than `trreject` times the step taken. -/
theorem checkAndConvert_future (o : TeOpt) (h : Hist ℝ) (hdt : h.dt = h.time 0 - h.time 1) (ht : h.time 1 < h.time 0)
    (hrej : o.trreject ≤ 1) (ts : ℝ) (hts : 0 < ts) (hnever : ts ≠ o.never) :
    let r := checkAndConvert o h ts
    h.time 1 + o.dtmin ≤ r ∧
    (h.time 0 < r ↔ h.dt * o.trreject ≤ max ts o.dtmin) ∧
    (¬ h.time 0 < r → r = h.time 1 + max ts o.dtmin ∧ r < h.time 0) := by
  intro r
  have hr : r = checkAndConvert o h ts := rfl
  have hmax : (if ts < o.dtmin then o.dtmin else ts) = max ts o.dtmin := by
    split
    · rename_i hl; rw [max_eq_right (le_of_lt hl)]
    · rename_i hl; rw [max_eq_left (not_lt.mp hl)]
  unfold checkAndConvert at hr
  rw [if_neg hnever] at hr
  simp only [hmax] at hr
  have hpos : 0 < max ts o.dtmin := lt_of_lt_of_le hts (le_max_left _ _)
  have hge : o.dtmin ≤ max ts o.dtmin := le_max_right _ _
  have hdtpos : 0 < h.dt := by rw [hdt]; linarith
  by_cases hc : max ts o.dtmin < h.dt * o.trreject
  · rw [if_pos hc] at hr
    have hlt : max ts o.dtmin < h.dt := lt_of_lt_of_le hc (by nlinarith)
    rw [hr]
    refine ⟨by linarith, ⟨fun h1 => ?_, fun h1 => absurd hc (not_lt.mpr h1)⟩, fun _ => ⟨rfl, ?_⟩⟩
    · exfalso; rw [hdt] at hlt; linarith
    · rw [hdt] at hlt; linarith
  · rw [if_neg hc] at hr
    rw [hr]
    refine ⟨by linarith, ⟨fun _ => not_lt.mp hc, fun _ => by linarith⟩, fun h1 => absurd (by linarith) h1⟩

/-- C27: 'never' stays 'never'. -/
theorem checkAndConvert_never (o : TeOpt) (h : Hist ℝ) : checkAndConvert o h o.never = o.never := by
  unfold checkAndConvert; rw [if_pos rfl]

/-- C27: if the recorded charges lie on a polynomial of degree less than the order of the error term, no limit is asked for. -/
theorem truncError_polynomial (o : TeOpt) (ord : ℤ) (hord : 0 ≤ ord) (ef : ℝ) (time : ℕ → ℝ) (h01 : time 1 < time 0) (q : ℕ → FPoly ℝ)
    (P : Polynomial ℝ) (hq : ∀ i, i < keep → (q i).f0 = P.eval (time i)) (hP : P.natDegree < errorDeriv ord time) :
    truncError o ord ef time q = o.never := by
  unfold truncError
  split
  · rfl
  · simp only
    obtain ⟨h1, h2, _, h4⟩ := errorDeriv_spec ord time h01 hord
    rw [if_pos]
    have hanti : ∀ i j, i < j → j ≤ errorDeriv ord time → time j < time i := by
      intro i j hij
      induction j with
      | zero => omega
      | succ j ih =>
        intro hj
        have := h4 j (by omega)
        by_cases he : i = j
        · rw [he]; exact this
        · exact lt_trans this (ih (by omega) (by omega))
    have hinj : Set.InjOn time (Finset.Icc 0 (errorDeriv ord time)) := by
      intro i hi j hj he
      simp at hi hj
      by_contra hne
      rcases Nat.lt_or_gt_of_ne hne with h | h
      · have := hanti i j h hj; linarith
      · have := hanti j i h hi; linarith
    have := derivatives_interpolant keep time (fun i => (q i).f0) (errorDeriv ord time) h2 hinj P (le_of_lt hP)
      (fun i hi => (hq i (by omega)).symm) 0
    rw [this, Polynomial.iterate_derivative_eq_zero hP, Polynomial.eval_zero]

example : errorDeriv 2 (fun k => if k = 0 then (5 : ℚ) else if k = 1 then 3 else if k = 2 then 1 else 0) = 3 := by decide +kernel
example : errorDeriv 2 (fun k => if k = 0 then (5 : ℚ) else if k = 1 then 3 else 0) = 2 := by decide +kernel
example : ∃ o : TeOpt, o.Ok := ⟨⟨1, 1, 7, 1/2, 1, 10⟩, by norm_num, by norm_num, by norm_num, by norm_num⟩

/-! ## C21 -/
section tp
variable {F : Type _} [LinearOrder F]

/-- Specification: all the requests in a circuit, subcircuits expanded. -/
def Cards.leaves : Cards F → List (TimePair F)
  | .nil => []
  | .card p rest => p :: rest.leaves
  | .sub inner rest => inner.leaves ++ rest.leaves

theorem timePair_min (p q : TimePair F) : p.min q = ⟨Min.min p.err q.err, Min.min p.event q.event⟩ := by
  unfold TimePair.min TimePair.minErr TimePair.minEvent
  by_cases h1 : q.err < p.err <;> by_cases h2 : q.event < p.event <;> simp [h1, h2, min_def]
  all_goals (ext <;> simp <;> intros <;> order)

theorem tr_review_foldl (never : F) (c : Cards F) : ∀ acc, acc.err ≤ never → acc.event ≤ never →
    tr_review never c acc = ⟨(c.leaves.map TimePair.err).foldl Min.min acc.err, (c.leaves.map TimePair.event).foldl Min.min acc.event⟩ := by
  induction c with
  | nil => intro acc _ _; rfl
  | card p rest ih =>
    intro acc h1 h2
    simp only [tr_review, Cards.leaves, List.map_cons, List.foldl_cons]
    rw [ih _ (by rw [timePair_min]; exact le_trans (min_le_left _ _) h1) (by rw [timePair_min]; exact le_trans (min_le_left _ _) h2)]
    rw [timePair_min]
  | sub inner rest ih1 ih2 =>
    intro acc h1 h2
    simp only [tr_review, Cards.leaves, List.map_append, List.foldl_append]
    rw [ih2 _ (by rw [timePair_min]; exact le_trans (min_le_left _ _) h1) (by rw [timePair_min]; exact le_trans (min_le_left _ _) h2)]
    rw [timePair_min, ih1 _ (le_refl _) (le_refl _)]
    have key : ∀ (l : List F) (a n : F), a ≤ n → Min.min a (l.foldl Min.min n) = l.foldl Min.min a := by
      intro l
      induction l with
      | nil => intro a n h; exact min_eq_left h
      | cons x l ih =>
        intro a n h
        simp only [List.foldl_cons]
        rw [← ih (Min.min a x) (Min.min n x) (min_le_min_right _ h)]
        have hle : l.foldl Min.min (Min.min n x) ≤ Min.min n x := by
          have : ∀ (l : List F) (b : F), l.foldl Min.min b ≤ b := by
            intro l
            induction l with
            | nil => intro b; exact le_refl _
            | cons y l ih => intro b; exact le_trans (ih _) (min_le_left _ _)
          exact this l _
        rw [min_assoc, min_eq_right (le_trans hle (min_le_right _ _))]
    simp only
    rw [key _ _ _ h1, key _ _ _ h2]

/-- C21: the review of a circuit is, component by component, the earliest time any card anywhere in it asked for, and NEVER if
none asked for anything earlier. -/
theorem review_is_min (never : F) (c : Cards F) :
    let r := tr_review never c ⟨never, never⟩
    (∀ p ∈ c.leaves, r.err ≤ p.err ∧ r.event ≤ p.event) ∧ r.err ≤ never ∧ r.event ≤ never ∧
    (r.err = never ∨ ∃ p ∈ c.leaves, r.err = p.err) ∧ (r.event = never ∨ ∃ p ∈ c.leaves, r.event = p.event) := by
  intro r
  have hr : r = ⟨(c.leaves.map TimePair.err).foldl Min.min never, (c.leaves.map TimePair.event).foldl Min.min never⟩ :=
    tr_review_foldl never c ⟨never, never⟩ (le_refl _) (le_refl _)
  have key : ∀ (l : List F) (n : F), (∀ x ∈ l, l.foldl Min.min n ≤ x) ∧ l.foldl Min.min n ≤ n ∧
      (l.foldl Min.min n = n ∨ l.foldl Min.min n ∈ l) := by
    intro l
    induction l with
    | nil => intro n; simp
    | cons y l ih =>
      intro n
      obtain ⟨a, b, d⟩ := ih (Min.min n y)
      simp only [List.foldl_cons]
      refine ⟨?_, le_trans b (min_le_left _ _), ?_⟩
      · intro x hx
        rcases List.mem_cons.mp hx with rfl | h
        · exact le_trans b (min_le_right _ _)
        · exact a x h
      · rcases d with d | d
        · rw [d]
          rcases min_choice n y with h | h
          · left; exact h
          · right; rw [h]; exact List.mem_cons_self
        · right; exact List.mem_cons_of_mem _ d
  obtain ⟨a1, b1, d1⟩ := key (c.leaves.map TimePair.err) never
  obtain ⟨a2, b2, d2⟩ := key (c.leaves.map TimePair.event) never
  rw [hr]
  refine ⟨fun p hp => ⟨a1 _ (List.mem_map_of_mem hp), a2 _ (List.mem_map_of_mem hp)⟩, b1, b2, ?_, ?_⟩
  · rcases d1 with d | d
    · exact Or.inl d
    · obtain ⟨p, hp, e⟩ := List.mem_map.mp d; exact Or.inr ⟨p, hp, e.symm⟩
  · rcases d2 with d | d
    · exact Or.inl d
    · obtain ⟨p, hp, e⟩ := List.mem_map.mp d; exact Or.inr ⟨p, hp, e.symm⟩

/-- C21: it depends neither on the order of the cards nor on how they are nested in subcircuits. -/
theorem review_order_independent (never : F) (c c' : Cards F) (h : c.leaves.Perm c'.leaves) :
    tr_review never c ⟨never, never⟩ = tr_review never c' ⟨never, never⟩ := by
  rw [tr_review_foldl never c _ (le_refl _) (le_refl _), tr_review_foldl never c' _ (le_refl _) (le_refl _)]
  have hc : RightCommutative (Min.min : F → F → F) := ⟨fun a b c => by rw [min_assoc, min_comm b c, min_assoc]⟩
  congr 1
  · exact (h.map TimePair.err).foldl_eq _
  · exact (h.map TimePair.event).foldl_eq _

example : (tr_review (100 : ℕ) (.card ⟨7, 90⟩ (.sub (.card ⟨3, 80⟩ .nil) (.card ⟨5, 60⟩ .nil))) ⟨100, 100⟩) = ⟨3, 60⟩ := by rfl

end tp
end Gnucap.Integ
