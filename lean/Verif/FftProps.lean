import Mathlib.RingTheory.RootsOfUnity.Complex
import Mathlib.Algebra.BigOperators.Intervals
import Mathlib.Tactic.LinearCombination
import Verif.FftModel

/-!
# `fft` computes the discrete Fourier transform

The specification is the defining sum `dft`; nothing of the model is used in it.
-/
set_option linter.unusedSimpArgs false
namespace Gnucap.Fft
open Complex Finset

noncomputable section

/-- The discrete Fourier transform with sign `s` of the exponent: `Σ_j x_j e^(s 2πi jk/n)`. -/
def dft (s : ℝ) (n : ℕ) (x : ℕ → ℂ) (k : ℕ) : ℂ :=
  ∑ j ∈ range n, x j * exp (s * (2 * Real.pi * j * k / n) * I)

/-- The base of the powers in the transform of length `n`. -/
def W (s : ℝ) (n : ℕ) : ℂ := exp (s * (2 * Real.pi / n) * I)

theorem W_pow (s : ℝ) (n m : ℕ) : W s n ^ m = exp (s * (2 * Real.pi * m / n) * I) := by
  rw [W, ← exp_nat_mul]
  congr 1
  ring

theorem dft_eq (s : ℝ) (n : ℕ) (x : ℕ → ℂ) (k : ℕ) : dft s n x k = ∑ j ∈ range n, x j * W s n ^ (j * k) := by
  unfold dft
  refine sum_congr rfl fun j _ => ?_
  rw [W_pow]
  push_cast
  congr 3
  ring

theorem twiddle_eq {s : ℝ} (hs : s = 1 ∨ s = -1) (n m : ℕ) : twiddle s n m = W s n ^ m := by
  rw [W_pow]
  have e : (s * (2 * Real.pi * m / n) * I : ℂ) = ((s * (m * (2 * Real.pi / n)) : ℝ) : ℂ) * I := by
    push_cast
    ring
  rw [e]
  rcases hs with rfl | rfl
  · apply Complex.ext
    · rw [exp_ofReal_mul_I_re]
      simp [twiddle]
    · rw [exp_ofReal_mul_I_im]
      simp [twiddle]
  · apply Complex.ext
    · rw [exp_ofReal_mul_I_re]
      simp [twiddle]
    · rw [exp_ofReal_mul_I_im]
      simp [twiddle]

theorem W_two_mul (s : ℝ) (n : ℕ) : W s (2 * n) ^ 2 = W s n := by
  rw [W_pow, W]
  congr 2
  push_cast
  rcases eq_or_ne (n : ℂ) 0 with h | h
  · simp [h]
  · field_simp

theorem W_half {s : ℝ} (hs : s = 1 ∨ s = -1) {n : ℕ} (hn : 0 < n) : W s (2 * n) ^ n = -1 := by
  have h : (n : ℂ) ≠ 0 := by exact_mod_cast hn.ne'
  rw [W_pow]
  have e : (s * (2 * Real.pi * n / (2 * n : ℕ)) * I : ℂ) = s * (Real.pi * I) := by
    push_cast
    field_simp
  rw [e]
  rcases hs with rfl | rfl
  · simp [exp_pi_mul_I]
  · simp [exp_neg, exp_pi_mul_I]

/-! ## one stage -/

theorem butterfly_apply (w : ℂ) {j1 j2 : ℕ} (h : j1 ≠ j2) (x : ℕ → ℂ) (i : ℕ) :
    butterfly w j1 j2 x i = if i = j1 then x j1 + x j2 else if i = j2 then (x j1 - x j2) * w else x i := by
  unfold butterfly
  by_cases h1 : i = j1
  · subst h1
    simp [Function.update_of_ne h]
  · by_cases h2 : i = j2
    · subst h2
      simp [h1]
    · simp [h1, h2, Function.update_of_ne]

theorem index_inj {N b c r t : ℕ} (hr : r < N) (ht : t < N) : b * N + r = c * N + t ↔ b = c ∧ r = t := by
  constructor
  · intro h
    have h1 : (b * N + r) / N = b := by
      rw [Nat.mul_comm, Nat.mul_add_div (by omega), Nat.div_eq_of_lt hr, Nat.add_zero]
    have h2 : (c * N + t) / N = c := by
      rw [Nat.mul_comm, Nat.mul_add_div (by omega), Nat.div_eq_of_lt ht, Nat.add_zero]
    have : b = c := by rw [← h1, h, h2]
    subst this
    omega
  · rintro ⟨rfl, rfl⟩
    rfl

/-- What the loop over the blocks does, from block `q` on. -/
theorem inner_apply (w : ℂ) {N m c : ℕ} (hm : m < N / 2) :
    ∀ (d q : ℕ), q + d = c → ∀ (x : ℕ → ℂ) (b r : ℕ), r < N →
    inner w (c * N) N m (m + q * N) x (b * N + r) =
      if q ≤ b ∧ b < c then
        (if r = m then x (b * N + m) + x (b * N + (m + N / 2))
         else if r = m + N / 2 then (x (b * N + m) - x (b * N + (m + N / 2))) * w
         else x (b * N + r))
      else x (b * N + r) := by
  intro d
  induction d with
  | zero =>
    intro q hq x b r hr
    rw [inner, if_neg]
    · rw [if_neg]
      omega
    · rintro ⟨_, h⟩
      have : q = c := by omega
      subst this
      omega
  | succ d ih =>
    intro q hq x b r hr
    have hle : m + q * N + N - m ≤ c * N := by
      have : (q + 1) * N ≤ c * N := Nat.mul_le_mul_right _ (by omega)
      rw [Nat.add_mul, Nat.one_mul] at this
      omega
    rw [inner, if_pos ⟨by omega, hle⟩]
    have e : m + q * N + N = m + (q + 1) * N := by ring
    rw [e, ih (q + 1) (by omega) _ b r hr]
    have e1 : m + q * N = q * N + m := by ring
    have e2 : m + q * N + N / 2 = q * N + (m + N / 2) := by ring
    have hne : q * N + m ≠ q * N + (m + N / 2) := by omega
    have hmN : m < N := by omega
    have hmN2 : m + N / 2 < N := by omega
    rw [e2, e1]
    simp only [butterfly_apply w hne, index_inj hr hmN, index_inj hr hmN2, index_inj hmN hmN, index_inj hmN2 hmN2,
      index_inj hmN hmN2, index_inj hmN2 hmN]
    rcases lt_trichotomy b q with h | h | h
    · have a1 : ¬(q + 1 ≤ b ∧ b < c) := by omega
      have a2 : ¬(q ≤ b ∧ b < c) := by omega
      have a3 : b ≠ q := by omega
      rw [if_neg a1, if_neg a2]
      simp [a3]
    · subst h
      have a1 : ¬(b + 1 ≤ b ∧ b < c) := by omega
      have a2 : (b ≤ b ∧ b < c) := by omega
      simp [a1, a2]
    · have a3 : b ≠ q := by omega
      have a4 : (q + 1 ≤ b ∧ b < c) ↔ (q ≤ b ∧ b < c) := by omega
      rw [if_congr a4 rfl rfl]
      simp [a3]

/-- One stage: sums in the lower halves of the blocks, differences times a root of unity in the upper
halves. -/
theorem stage_apply {s : ℝ} (hs : s = 1 ∨ s = -1) {N c : ℕ} (x : ℕ → ℂ) (b r : ℕ) (hr : r < N) :
    stage s (c * N) N x (b * N + r) =
      if b < c then
        (if r < N / 2 then x (b * N + r) + x (b * N + (r + N / 2))
         else if r < 2 * (N / 2) then (x (b * N + (r - N / 2)) - x (b * N + r)) * W s N ^ (r - N / 2)
         else x (b * N + r))
      else x (b * N + r) := by
  have key := forRange_inv (lo := 0) (hi := N / 2) (s := x)
    (f := fun m x => inner (twiddle s N m) (c * N) N m m x)
    (P := fun m y => ∀ b r, r < N → y (b * N + r) =
      if b < c then
        (if r < m then x (b * N + r) + x (b * N + (r + N / 2))
         else if N / 2 ≤ r ∧ r < N / 2 + m then (x (b * N + (r - N / 2)) - x (b * N + r)) * W s N ^ (r - N / 2)
         else x (b * N + r))
      else x (b * N + r))
    (Nat.zero_le _)
    (by
      intro b r _
      have h1 : ¬(N / 2 ≤ r ∧ r < N / 2 + 0) := by omega
      simp [h1])
    (by
      intro m y _ hm ih b r hr
      have := inner_apply (twiddle s N m) (N := N) (m := m) (c := c) hm c 0 (by omega) y b r hr
      rw [Nat.zero_mul, Nat.add_zero] at this
      rw [this]
      have hmN : m < N := by omega
      have hmN2 : m + N / 2 < N := by omega
      rw [ih b m hmN, ih b (m + N / 2) hmN2, ih b r hr]
      by_cases hb : b < c
      · have a1 : (0 ≤ b ∧ b < c) := by omega
        have b1 : ¬ (m < m) := by omega
        have b2 : ¬ (N / 2 ≤ m ∧ m < N / 2 + m) := by omega
        have b3 : ¬ (m + N / 2 < m) := by omega
        have b4 : ¬ (N / 2 ≤ m + N / 2 ∧ m + N / 2 < N / 2 + m) := by omega
        rw [if_pos a1, if_pos hb, if_pos hb, if_pos hb, if_pos hb, if_neg b1, if_neg b2, if_neg b3, if_neg b4]
        by_cases h1 : r = m
        · subst h1
          rw [if_pos rfl, if_pos (by omega)]
        · rw [if_neg h1]
          by_cases h2 : r = m + N / 2
          · subst h2
            rw [if_pos rfl, if_neg (by omega), if_pos (by omega), twiddle_eq hs]
            simp
          · rw [if_neg h2]
            by_cases h3 : r < m
            · rw [if_pos h3, if_pos (by omega)]
            · rw [if_neg h3, if_neg (show ¬ r < m + 1 by omega)]
              by_cases h4 : N / 2 ≤ r ∧ r < N / 2 + m
              · rw [if_pos h4, if_pos (by omega)]
              · rw [if_neg h4, if_neg (by omega)]
      · have a1 : ¬ (0 ≤ b ∧ b < c) := by omega
        rw [if_neg a1, if_neg hb, if_neg hb])
  have h := key b r hr
  rw [stage, h]
  by_cases hb : b < c
  · rw [if_pos hb, if_pos hb]
    by_cases h1 : r < N / 2
    · rw [if_pos h1, if_pos h1]
    · rw [if_neg h1, if_neg h1]
      by_cases h2 : r < 2 * (N / 2)
      · rw [if_pos h2, if_pos (by omega)]
      · rw [if_neg h2, if_neg (by omega)]
  · rw [if_neg hb, if_neg hb]

/-! ## all stages -/

/-- The number whose `p` binary digits are those of `k` in reverse order. -/
def rev : ℕ → ℕ → ℕ
  | 0, _ => 0
  | p + 1, k => (k % 2) * 2 ^ p + rev p (k / 2)

theorem rev_lt : ∀ p k, rev p k < 2 ^ p
  | 0, _ => by simp [rev]
  | p + 1, k => by
    have := rev_lt p (k / 2)
    have h2 : k % 2 < 2 := Nat.mod_lt _ (by omega)
    have : (k % 2) * 2 ^ p ≤ 1 * 2 ^ p := Nat.mul_le_mul_right _ (by omega)
    rw [rev, pow_succ]
    omega

theorem stages_step {s : ℝ} {n p : ℕ} (x : ℕ → ℂ) :
    stages s n (2 ^ (p + 1)) x = stages s n (2 ^ p) (stage s n (2 ^ (p + 1)) x) := by
  have e : 2 ^ (p + 1) / 2 = 2 ^ p := by rw [pow_succ]; omega
  rw [stages, e, if_pos (by positivity)]

/-- After the stages every block of length `2^p` holds its transform in bit reversed order. -/
theorem stages_dft {s : ℝ} (hs : s = 1 ∨ s = -1) : ∀ (p c : ℕ) (x : ℕ → ℂ) (b k : ℕ), b < c → k < 2 ^ p →
    stages s (c * 2 ^ p) (2 ^ p) x (b * 2 ^ p + rev p k) =
      ∑ j ∈ range (2 ^ p), x (b * 2 ^ p + j) * W s (2 ^ p) ^ (j * k) := by
  intro p
  induction p with
  | zero =>
    intro c x b k _ _
    rw [stages]
    simp [rev]
  | succ p ih =>
    intro c x b k hb hk
    have e : 2 ^ (p + 1) / 2 = 2 ^ p := by rw [pow_succ]; omega
    have e2 : 2 ^ (p + 1) = 2 * 2 ^ p := by rw [pow_succ]; ring
    have hpos : 0 < 2 ^ p := by positivity
    rw [stages_step]
    have ec : c * 2 ^ (p + 1) = 2 * c * 2 ^ p := by rw [e2]; ring
    have hk2 : k / 2 < 2 ^ p := by rw [e2] at hk; omega
    have lower : ∀ j < 2 ^ p, stage s (c * 2 ^ (p + 1)) (2 ^ (p + 1)) x (2 * b * 2 ^ p + j) =
        x (b * 2 ^ (p + 1) + j) + x (b * 2 ^ (p + 1) + (j + 2 ^ p)) := by
      intro j hj
      have := stage_apply hs (N := 2 ^ (p + 1)) (c := c) x b j (by omega)
      rw [if_pos hb, e, if_pos hj] at this
      rw [← this]
      congr 1
      rw [e2]
      ring
    have upper : ∀ j < 2 ^ p, stage s (c * 2 ^ (p + 1)) (2 ^ (p + 1)) x ((2 * b + 1) * 2 ^ p + j) =
        (x (b * 2 ^ (p + 1) + j) - x (b * 2 ^ (p + 1) + (j + 2 ^ p))) * W s (2 ^ (p + 1)) ^ j := by
      intro j hj
      have := stage_apply hs (N := 2 ^ (p + 1)) (c := c) x b (j + 2 ^ p) (by omega)
      rw [if_pos hb, e, if_neg (by omega), if_pos (by omega)] at this
      have e3 : j + 2 ^ p - 2 ^ p = j := by omega
      rw [e3] at this
      rw [← this]
      congr 1
      rw [e2]
      ring
    have split : ∀ f : ℕ → ℂ, ∑ j ∈ range (2 ^ (p + 1)), f j = ∑ j ∈ range (2 ^ p), (f j + f (j + 2 ^ p)) := by
      intro f
      rw [e2, two_mul, sum_range_add, sum_add_distrib]
      congr 1
      exact sum_congr rfl fun j _ => by rw [Nat.add_comm]
    have root : W s (2 ^ (p + 1)) ^ 2 = W s (2 ^ p) := by rw [e2]; exact W_two_mul s _
    have half : W s (2 ^ (p + 1)) ^ (2 ^ p) = -1 := by rw [e2]; exact W_half hs hpos
    rcases Nat.mod_two_eq_zero_or_one k with h0 | h1
    · have er : b * 2 ^ (p + 1) + rev (p + 1) k = 2 * b * 2 ^ p + rev p (k / 2) := by
        rw [rev, h0, e2]
        ring
      rw [er, ec, ih (2 * c) _ (2 * b) (k / 2) (by omega) hk2, split, ← ec]
      refine sum_congr rfl fun j hj => ?_
      rw [lower j (mem_range.mp hj)]
      have hk' : k = 2 * (k / 2) := by omega
      generalize k / 2 = l at hk' ⊢
      subst hk'
      have a1 : W s (2 ^ (p + 1)) ^ (j * (2 * l)) = W s (2 ^ p) ^ (j * l) := by
        rw [← root, ← pow_mul]
        congr 1
        ring
      have a2 : W s (2 ^ (p + 1)) ^ ((j + 2 ^ p) * (2 * l)) = W s (2 ^ p) ^ (j * l) := by
        have : (j + 2 ^ p) * (2 * l) = j * (2 * l) + 2 ^ p * (2 * l) := by ring
        have h2 : (-1 : ℂ) ^ (2 * l) = 1 := by rw [pow_mul]; norm_num
        rw [this, pow_add, a1, pow_mul _ (2 ^ p), half, h2, mul_one]
      rw [a1, a2]
      ring
    · have er : b * 2 ^ (p + 1) + rev (p + 1) k = (2 * b + 1) * 2 ^ p + rev p (k / 2) := by
        rw [rev, h1, e2]
        ring
      rw [er, ec, ih (2 * c) _ (2 * b + 1) (k / 2) (by omega) hk2, split, ← ec]
      refine sum_congr rfl fun j hj => ?_
      rw [upper j (mem_range.mp hj)]
      have hk' : k = 2 * (k / 2) + 1 := by omega
      generalize k / 2 = l at hk' ⊢
      subst hk'
      have a1 : W s (2 ^ (p + 1)) ^ (j * (2 * l + 1)) = W s (2 ^ (p + 1)) ^ j * W s (2 ^ p) ^ (j * l) := by
        rw [← root, ← pow_mul, ← pow_add]
        congr 1
        ring
      have a2 : W s (2 ^ (p + 1)) ^ ((j + 2 ^ p) * (2 * l + 1)) =
          -(W s (2 ^ (p + 1)) ^ j * W s (2 ^ p) ^ (j * l)) := by
        have : (j + 2 ^ p) * (2 * l + 1) = j * (2 * l + 1) + 2 ^ p * (2 * l + 1) := by ring
        have h2 : (-1 : ℂ) ^ (2 * l + 1) = -1 := by rw [pow_succ, pow_mul]; norm_num
        rw [this, pow_add, a1, pow_mul _ (2 ^ p), half, h2, mul_neg, mul_one]
      rw [a1, a2]
      ring

/-! ## putting the results in order -/

theorem revInc_rev : ∀ p i, i + 1 < 2 ^ p → revInc (2 ^ p / 2) (rev p i) = some (rev p (i + 1))
  | 0, i, h => by simp at h
  | p + 1, i, h => by
    have e : 2 ^ (p + 1) / 2 = 2 ^ p := by rw [pow_succ]; omega
    have e2 : 2 ^ (p + 1) = 2 * 2 ^ p := by rw [pow_succ]; ring
    have hpos : 0 < 2 ^ p := by positivity
    have hlt := rev_lt p (i / 2)
    rw [e, revInc]
    rcases Nat.mod_two_eq_zero_or_one i with h0 | h1
    · have a1 : rev (p + 1) i = rev p (i / 2) := by rw [rev, h0]; simp
      have a2 : rev (p + 1) (i + 1) = rev p (i / 2) + 2 ^ p := by
        have b1 : (i + 1) % 2 = 1 := by omega
        have b2 : (i + 1) / 2 = i / 2 := by omega
        rw [rev, b1, b2]
        ring
      rw [a1, a2, if_neg (by omega)]
    · have a1 : rev (p + 1) i = 2 ^ p + rev p (i / 2) := by rw [rev, h1]; ring
      have a2 : rev (p + 1) (i + 1) = rev p (i / 2 + 1) := by
        have b1 : (i + 1) % 2 = 0 := by omega
        have b2 : (i + 1) / 2 = i / 2 + 1 := by omega
        rw [rev, b1, b2]
        ring
      rw [a1, a2, if_pos (by omega), if_neg (by omega), Nat.add_sub_cancel_left]
      exact revInc_rev p (i / 2) (by omega)

theorem rev_add (p : ℕ) : ∀ k, k < 2 ^ p → ∀ t < 2, rev (p + 1) (k + 2 ^ p * t) = 2 * rev p k + t := by
  induction p with
  | zero =>
    intro k hk t ht
    have : k = 0 := by simpa using hk
    subst this
    simp [rev]
    omega
  | succ p ih =>
    intro k hk t ht
    have e2 : 2 ^ (p + 1) = 2 * 2 ^ p := by rw [pow_succ]; ring
    rw [rev]
    have a1 : (k + 2 ^ (p + 1) * t) % 2 = k % 2 := by rw [e2, Nat.mul_assoc]; omega
    have a2 : (k + 2 ^ (p + 1) * t) / 2 = k / 2 + 2 ^ p * t := by rw [e2, Nat.mul_assoc]; omega
    rw [a1, a2, ih (k / 2) (by omega) t ht, rev, e2]
    ring

theorem rev_rev (p : ℕ) : ∀ k, k < 2 ^ p → rev p (rev p k) = k := by
  induction p with
  | zero =>
    intro k hk
    simp [rev]
    have : k = 0 := by simpa using hk
    omega
  | succ p ih =>
    intro k hk
    have e2 : 2 ^ (p + 1) = 2 * 2 ^ p := by rw [pow_succ]; ring
    have hlt := rev_lt p (k / 2)
    have := rev_add p (rev p (k / 2)) hlt (k % 2) (Nat.mod_lt _ (by omega))
    have e : rev (p + 1) k = rev p (k / 2) + 2 ^ p * (k % 2) := by rw [rev]; ring
    rw [e, this, ih (k / 2) (by omega)]
    omega

theorem unscramble_inv (p : ℕ) (x : ℕ → ℂ) : ∃ y, unscramble (2 ^ p) x = some y ∧
    (∀ a, a < 2 ^ p → y a = x (rev p a)) ∧ ∀ a, 2 ^ p ≤ a → y a = x a := by
  have key := forRange_inv (lo := 0) (hi := 2 ^ p - 1) (s := (some (0, x) : Option (ℕ × (ℕ → ℂ))))
    (f := unscrambleStep (2 ^ p))
    (P := fun i st => ∃ y, st = some (rev p i, y) ∧
      (∀ a, a < 2 ^ p → y a = if a < i ∨ rev p a < i then x (rev p a) else x a) ∧ ∀ a, 2 ^ p ≤ a → y a = x a)
    (Nat.zero_le _)
    (by
      refine ⟨x, ?_, ?_, fun _ _ => rfl⟩
      · have : ∀ p, rev p 0 = 0 := by
          intro p
          induction p with
          | zero => rfl
          | succ p ih => simp [rev, ih]
        rw [this]
      · intro a _
        simp)
    (by
      rintro i st _ hi ⟨y, rfl, hy, ho⟩
      have hlt := rev_lt p i
      have hii : i < 2 ^ p := by omega
      have hinc := revInc_rev p i (by omega)
      simp only [unscrambleStep, Option.bind_some, hinc, Option.map_some]
      refine ⟨_, rfl, ?_, ?_⟩
      · intro a ha
        have hra := rev_lt p a
        have inj : ∀ c, c < 2 ^ p → rev p a = c → a = rev p c := by
          intro c _ h
          rw [← h, rev_rev p a ha]
        by_cases hij : i < rev p i
        · rw [if_pos hij, swapAt]
          by_cases h1 : a = rev p i
          · subst h1
            rw [Function.update_self, hy i hii, rev_rev p i hii, if_neg (by omega), if_pos (by omega)]
          · rw [Function.update_of_ne h1]
            by_cases h2 : a = i
            · subst h2
              rw [Function.update_self, hy _ hlt, rev_rev p a hii, if_neg (by omega), if_pos (by omega)]
            · rw [Function.update_of_ne h2, hy a ha]
              have h3 : rev p a ≠ i := fun h => h1 (inj i hii h)
              by_cases h4 : a < i ∨ rev p a < i
              · rw [if_pos h4, if_pos (by omega)]
              · rw [if_neg h4, if_neg (by omega)]
        · rw [if_neg hij, hy a ha]
          by_cases h4 : a < i ∨ rev p a < i
          · rw [if_pos h4, if_pos (by omega)]
          · rw [if_neg h4]
            by_cases h5 : a < i + 1 ∨ rev p a < i + 1
            · rw [if_pos h5]
              rcases h5 with h5 | h5
              · have : a = i := by omega
                subst this
                have : rev p a = a := by omega
                rw [this]
              · have h6 : rev p a = i := by omega
                have h7 := inj i hii h6
                have : a = i := by omega
                rw [h6, this]
            · rw [if_neg h5]
      · intro a ha
        by_cases hij : i < rev p i
        · rw [if_pos hij, swapAt, Function.update_of_ne (by omega), Function.update_of_ne (by omega), ho a ha]
        · rw [if_neg hij, ho a ha])
  obtain ⟨y, h1, h2, h3⟩ := key
  refine ⟨y, ?_, ?_, h3⟩
  · rw [unscramble, h1]
    rfl
  · intro a ha
    have hlt := rev_lt p a
    rw [h2 a ha]
    by_cases h : a < 2 ^ p - 1 ∨ rev p a < 2 ^ p - 1
    · rw [if_pos h]
    · rw [if_neg h]
      have : rev p a = a := by omega
      rw [this]

theorem level_apply (n : ℕ) (x : ℕ → ℂ) (a : ℕ) : level n x a = if a < n then x a / n else x a := by
  have key := forRange_inv (lo := 0) (hi := n) (s := x) (f := fun i x => Function.update x i (x i / (n : ℂ)))
    (P := fun i y => ∀ a, y a = if a < i then x a / n else x a) (Nat.zero_le _) (by intro a; simp)
    (by
      intro i y _ hi ih a
      by_cases h : a = i
      · subst h
        rw [Function.update_self, ih a, if_neg (by omega), if_pos (by omega)]
      · rw [Function.update_of_ne h, ih a]
        by_cases h2 : a < i
        · rw [if_pos h2, if_pos (by omega)]
        · rw [if_neg h2, if_neg (by omega)])
  exact key a

/-! ## the theorems -/

/-- The stages leave everything behind the array alone. -/
theorem stages_outside {s : ℝ} (hs : s = 1 ∨ s = -1) : ∀ (p c : ℕ) (x : ℕ → ℂ) (a : ℕ), c * 2 ^ p ≤ a →
    stages s (c * 2 ^ p) (2 ^ p) x a = x a := by
  intro p
  induction p with
  | zero =>
    intro c x a _
    rw [stages]
    simp
  | succ p ih =>
    intro c x a ha
    have e2 : 2 ^ (p + 1) = 2 * 2 ^ p := by rw [pow_succ]; ring
    have ec : c * 2 ^ (p + 1) = 2 * c * 2 ^ p := by rw [e2]; ring
    rw [stages_step, ec, ih (2 * c) _ a (by omega), ← ec]
    have hpos : 0 < 2 ^ (p + 1) := by positivity
    have hd : a / 2 ^ (p + 1) * 2 ^ (p + 1) + a % 2 ^ (p + 1) = a := by
      rw [Nat.mul_comm]
      exact Nat.div_add_mod a _
    have := stage_apply hs (N := 2 ^ (p + 1)) (c := c) x (a / 2 ^ (p + 1)) (a % 2 ^ (p + 1)) (Nat.mod_lt _ hpos)
    rw [hd, if_neg] at this
    · exact this
    · rw [not_lt, Nat.le_div_iff_mul_le hpos]
      exact ha

theorem sign_cases (inv : Bool) : (if inv then (1 : ℝ) else -1) = 1 ∨ (if inv then (1 : ℝ) else -1) = -1 := by
  cases inv <;> simp

/-- `fft` of a length that is a power of two comes back; its result is the discrete Fourier transform,
divided by the length for the forward direction and not divided for the inverse direction; nothing
behind the array is written. -/
theorem fft_correct (p : ℕ) (x : ℕ → ℂ) (inv : Bool) : ∃ y, fft x (2 ^ p) inv = some y ∧
    (∀ k, k < 2 ^ p → y k = if inv then dft 1 (2 ^ p) x k else dft (-1) (2 ^ p) x k / (2 ^ p : ℕ)) ∧
    ∀ a, 2 ^ p ≤ a → y a = x a := by
  have hs := sign_cases inv
  obtain ⟨y, h1, h2, h3⟩ := unscramble_inv p (stages (if inv then 1 else -1) (2 ^ p) (2 ^ p) x)
  have hd : ∀ k, k < 2 ^ p → y k = dft (if inv then 1 else -1) (2 ^ p) x k := by
    intro k hk
    rw [h2 k hk, dft_eq]
    have := stages_dft hs p 1 x 0 k (by omega) hk
    simpa using this
  have ho : ∀ a, 2 ^ p ≤ a → y a = x a := by
    intro a ha
    rw [h3 a ha]
    have := stages_outside hs p 1 x a (by omega)
    simpa using this
  refine ⟨if inv then y else level (2 ^ p) y, ?_, ?_, ?_⟩
  · simp only [fft, h1, Option.map_some]
  · intro k hk
    cases inv with
    | true => simpa using hd k hk
    | false =>
      rw [if_neg (by simp), if_neg (by simp), level_apply, if_pos hk, hd k hk]
      simp
  · intro a ha
    cases inv with
    | true => simpa using ho a ha
    | false =>
      rw [if_neg (by simp), level_apply, if_neg (by omega), ho a ha]

end
end Gnucap.Fft
