import Mathlib.Algebra.BigOperators.Field
import Mathlib.Algebra.Field.GeomSum
import Mathlib.Algebra.Order.Floor.Ring
import Mathlib.Tactic.FieldSimp
import Mathlib.Tactic.Positivity
import Verif.FftProps

/-!
# There and back, which lengths work, and what the `fourier` command prints
-/
set_option linter.unusedSimpArgs false
namespace Gnucap.Fft
open Complex Finset

noncomputable section

/-- `e^(2πi d/n)` -/
def E (n : ℕ) (d : ℤ) : ℂ := exp (2 * Real.pi * d / n * I)

theorem E_add (n : ℕ) (a b : ℤ) : E n (a + b) = E n a * E n b := by
  rw [E, E, E, ← exp_add]
  congr 1
  push_cast
  ring

theorem E_mul_nat (n : ℕ) (d : ℤ) (j : ℕ) : E n (d * j) = E n d ^ j := by
  rw [E, E, ← exp_nat_mul]
  congr 1
  push_cast
  ring

theorem E_eq_one {n : ℕ} (hn : 0 < n) (d : ℤ) : E n d = 1 ↔ (n : ℤ) ∣ d := by
  have hn' : (n : ℂ) ≠ 0 := by exact_mod_cast hn.ne'
  rw [E, exp_eq_one_iff]
  have hp : (2 * Real.pi * I : ℂ) ≠ 0 := two_pi_I_ne_zero
  constructor
  · rintro ⟨k, hk⟩
    refine ⟨k, ?_⟩
    have h1 : (2 * Real.pi * I : ℂ) * (d / n) = (2 * Real.pi * I : ℂ) * k := by
      linear_combination hk
    have h2 := mul_left_cancel₀ hp h1
    rw [div_eq_iff hn'] at h2
    have : ((d : ℤ) : ℂ) = ((n * k : ℤ) : ℂ) := by
      push_cast
      rw [h2]
      ring
    exact_mod_cast this
  · rintro ⟨k, rfl⟩
    refine ⟨k, ?_⟩
    push_cast
    field_simp

/-- The sum of the powers of a root of unity. -/
theorem E_sum {n : ℕ} (hn : 0 < n) (d : ℤ) : ∑ j ∈ range n, E n (d * j) = if (n : ℤ) ∣ d then (n : ℂ) else 0 := by
  by_cases h : (n : ℤ) ∣ d
  · rw [if_pos h]
    have : ∀ j ∈ range n, E n (d * j) = 1 := fun j _ => (E_eq_one hn _).mpr (Dvd.dvd.mul_right h _)
    rw [sum_congr rfl this]
    simp
  · rw [if_neg h]
    have h1 : E n d ≠ 1 := fun e => h ((E_eq_one hn d).mp e)
    have h2 : E n d ^ n = 1 := by
      rw [← E_mul_nat]
      exact (E_eq_one hn _).mpr (Dvd.intro_left d rfl)
    simp only [E_mul_nat]
    rw [geom_sum_eq h1, h2]
    simp

theorem dft_fwd (n : ℕ) (x : ℕ → ℂ) (k : ℕ) : dft (-1) n x k = ∑ j ∈ range n, x j * E n (-(k : ℤ) * j) := by
  refine sum_congr rfl fun j _ => ?_
  rw [E]
  congr 2
  push_cast
  ring

theorem dft_inv (n : ℕ) (x : ℕ → ℂ) (k : ℕ) : dft 1 n x k = ∑ j ∈ range n, x j * E n ((k : ℤ) * j) := by
  refine sum_congr rfl fun j _ => ?_
  rw [E]
  congr 2
  push_cast
  ring

theorem dft_congr (s : ℝ) {n : ℕ} {x y : ℕ → ℂ} (h : ∀ j, j < n → x j = y j) (k : ℕ) :
    dft s n x k = dft s n y k :=
  sum_congr rfl fun j hj => by rw [h j (mem_range.mp hj)]

theorem dvd_sub_iff {n a b : ℕ} (ha : a < n) (hb : b < n) : (n : ℤ) ∣ (a : ℤ) - b ↔ a = b := by
  constructor
  · rintro ⟨c, hc⟩
    rcases lt_trichotomy c 0 with h | h | h
    · nlinarith
    · subst h
      omega
    · nlinarith
  · rintro rfl
    simp

/-- The transforms undo each other (one of them has to be divided by the length). -/
theorem dft_dft {n : ℕ} (x : ℕ → ℂ) (l : ℕ) (hl : l < n) :
    dft 1 n (fun k => dft (-1) n x k / n) l = x l ∧ dft (-1) n (fun k => dft 1 n x k) l / n = x l := by
  have hn : 0 < n := by omega
  have hn' : (n : ℂ) ≠ 0 := by exact_mod_cast hn.ne'
  constructor
  · rw [dft_inv]
    have h1 : ∀ k ∈ range n, dft (-1) n x k / n * E n ((l : ℤ) * k) =
        ∑ j ∈ range n, x j / n * E n (((l : ℤ) - j) * k) := by
      intro k _
      rw [dft_fwd, Finset.sum_div, sum_mul]
      refine sum_congr rfl fun j _ => ?_
      have e : ((l : ℤ) - j) * k = -(k : ℤ) * j + (l : ℤ) * k := by ring
      rw [e, E_add]
      ring
    rw [sum_congr rfl h1, sum_comm]
    have h2 : ∀ j ∈ range n, ∑ k ∈ range n, x j / n * E n (((l : ℤ) - j) * k) = if j = l then x l else 0 := by
      intro j hj
      rw [← mul_sum, E_sum hn]
      by_cases h : j = l
      · subst h
        simp
        field_simp
      · rw [if_neg h, if_neg, mul_zero]
        rw [dvd_sub_iff hl (mem_range.mp hj)]
        exact fun e => h e.symm
    rw [sum_congr rfl h2]
    simp [hl]
  · rw [dft_fwd]
    have h1 : ∀ k ∈ range n, dft 1 n x k * E n (-(l : ℤ) * k) = ∑ j ∈ range n, x j * E n (((j : ℤ) - l) * k) := by
      intro k _
      rw [dft_inv, sum_mul]
      refine sum_congr rfl fun j _ => ?_
      have e : ((j : ℤ) - l) * k = (k : ℤ) * j + -(l : ℤ) * k := by ring
      rw [e, E_add]
      ring
    rw [sum_congr rfl h1, sum_comm]
    have h2 : ∀ j ∈ range n, ∑ k ∈ range n, x j * E n (((j : ℤ) - l) * k) = if j = l then x l * n else 0 := by
      intro j hj
      rw [← mul_sum, E_sum hn]
      by_cases h : j = l
      · subst h
        simp
      · rw [if_neg h, if_neg, mul_zero]
        rw [dvd_sub_iff (mem_range.mp hj) hl]
        exact h
    rw [sum_congr rfl h2]
    simp [hl, hn']

/-- A forward transform followed by an inverse one, or the other way round, gives back the data. -/
theorem fft_there_and_back (p : ℕ) (x : ℕ → ℂ) (dir : Bool) :
    ∃ y z, fft x (2 ^ p) dir = some y ∧ fft y (2 ^ p) (!dir) = some z ∧ ∀ i, z i = x i := by
  obtain ⟨y, h1, h2, h3⟩ := fft_correct p x dir
  obtain ⟨z, g1, g2, g3⟩ := fft_correct p y (!dir)
  refine ⟨y, z, h1, g1, fun i => ?_⟩
  by_cases hi : i < 2 ^ p
  · rw [g2 i hi]
    cases dir with
    | false =>
      have := (dft_dft x i hi).1
      rw [← dft_congr 1 (y := fun k => dft (-1) (2 ^ p) x k / (2 ^ p : ℕ)) (x := y)] at this
      · simpa using this
      · intro j hj
        simpa using h2 j hj
    | true =>
      have := (dft_dft x i hi).2
      rw [← dft_congr (-1) (y := fun k => dft 1 (2 ^ p) x k) (x := y)] at this
      · simpa using this
      · intro j hj
        simpa using h2 j hj
  · rw [g3 i (by omega), h3 i (by omega)]

example : ∃ y z, fft (fun j => if j = 3 then 1 else 0) 8 true = some y ∧ fft y 8 false = some z ∧
    ∀ i, z i = if i = 3 then 1 else 0 :=
  fft_there_and_back 3 _ true

/-! ## which lengths work -/

/-- The counter of the unscramble loop for a length between `2^p` and `2^(p+1)`: the binary digits of
`i` in reverse order with weights `n/2, n/4, …`. -/
def rw' : ℕ → ℕ → ℕ → ℕ
  | 0, _, _ => 0
  | p + 1, n, i => (i % 2) * (n / 2) + rw' p (n / 2) (i / 2)

theorem rw'_lt : ∀ p n i, 2 ^ p ≤ n → rw' p n i < n
  | 0, n, _, h => by simp [rw'] at h ⊢; omega
  | p + 1, n, i, h => by
    rw [pow_succ] at h
    have := rw'_lt p (n / 2) (i / 2) (by omega)
    have h2 : i % 2 < 2 := Nat.mod_lt _ (by omega)
    have h3 : (i % 2) * (n / 2) ≤ 1 * (n / 2) := Nat.mul_le_mul_right _ (by omega)
    rw [rw']
    omega

theorem revInc_rw' : ∀ p n i, 2 ^ p ≤ n → n < 2 ^ (p + 1) → i < 2 ^ p →
    revInc (n / 2) (rw' p n i) = if i + 1 < 2 ^ p then some (rw' p n (i + 1)) else none
  | 0, n, i, h, g, hi => by
    have : n / 2 = 0 := by simp at g; omega
    rw [this, revInc]
    have : i = 0 := by simpa using hi
    simp [rw', this]
  | p + 1, n, i, h, g, hi => by
    have e : 2 ^ (p + 1) = 2 * 2 ^ p := by rw [pow_succ]; ring
    have e' : 2 ^ (p + 1 + 1) = 2 * 2 ^ (p + 1) := by rw [pow_succ]; ring
    have hpos : 0 < 2 ^ p := by positivity
    have ih := revInc_rw' p (n / 2) (i / 2) (by omega) (by omega) (by omega)
    have hlt := rw'_lt p (n / 2) (i / 2) (by omega)
    rw [revInc]
    rcases Nat.mod_two_eq_zero_or_one i with h0 | h1
    · have a1 : rw' (p + 1) n i = rw' p (n / 2) (i / 2) := by rw [rw', h0]; simp
      have a2 : rw' (p + 1) n (i + 1) = rw' p (n / 2) (i / 2) + n / 2 := by
        have b1 : (i + 1) % 2 = 1 := by omega
        have b2 : (i + 1) / 2 = i / 2 := by omega
        rw [rw', b1, b2]
        ring
      rw [a1, a2, if_neg (by omega), if_pos (by omega)]
    · have a1 : rw' (p + 1) n i = n / 2 + rw' p (n / 2) (i / 2) := by rw [rw', h1]; ring
      have a2 : rw' (p + 1) n (i + 1) = rw' p (n / 2) (i / 2 + 1) := by
        have b1 : (i + 1) % 2 = 0 := by omega
        have b2 : (i + 1) / 2 = i / 2 + 1 := by omega
        rw [rw', b1, b2]
        ring
      rw [a1, a2, if_pos (by omega), if_neg (by omega), Nat.add_sub_cancel_left, ih]
      exact if_congr (by omega) rfl rfl

/-- For a length that is not a power of two the loop that puts the results in order never ends. -/
theorem unscramble_hangs {p n : ℕ} (h : 2 ^ p < n) (g : n < 2 ^ (p + 1)) (x : ℕ → ℂ) : unscramble n x = none := by
  have hpos : 0 < 2 ^ p := by positivity
  have key := forRange_inv (lo := 0) (hi := n - 1) (s := (some (0, x) : Option (ℕ × (ℕ → ℂ))))
    (f := unscrambleStep n)
    (P := fun i st => (i < 2 ^ p → ∃ y, st = some (rw' p n i, y)) ∧ (2 ^ p ≤ i → st = none))
    (Nat.zero_le _)
    (by
      refine ⟨fun _ => ⟨x, ?_⟩, fun h => by omega⟩
      have : ∀ p n, rw' p n 0 = 0 := by
        intro p
        induction p with
        | zero => intro n; rfl
        | succ p ih => intro n; simp [rw', ih]
      rw [this])
    (by
      rintro i st _ hi ⟨h1, h2⟩
      by_cases hp : i < 2 ^ p
      · obtain ⟨y, rfl⟩ := h1 hp
        have := revInc_rw' p n i (by omega) g hp
        simp only [unscrambleStep, Option.bind_some, this]
        by_cases hq : i + 1 < 2 ^ p
        · rw [if_pos hq]
          exact ⟨fun _ => ⟨_, rfl⟩, fun h => by omega⟩
        · rw [if_neg hq]
          exact ⟨fun h => absurd h hq, fun _ => rfl⟩
      · rw [h2 (by omega)]
        exact ⟨fun h => by omega, fun _ => rfl⟩)
  rw [unscramble, key.2 (by omega)]
  rfl

/-- `fft` comes back exactly for the lengths that are powers of two (and for the empty array). -/
theorem fft_returns_iff (x : ℕ → ℂ) (n : ℕ) (inv : Bool) :
    (fft x n inv).isSome = true ↔ n = 0 ∨ ∃ p, n = 2 ^ p := by
  constructor
  · intro h
    by_contra hn
    rw [not_or] at hn
    have h0 : 0 < n := by omega
    have h1 : 2 ^ Nat.log 2 n ≤ n := Nat.pow_log_le_self 2 (by omega)
    have h2 : n < 2 ^ (Nat.log 2 n + 1) := Nat.lt_pow_succ_log_self (by omega) n
    have h3 : 2 ^ Nat.log 2 n < n := lt_of_le_of_ne h1 fun e => hn.2 ⟨_, e.symm⟩
    rw [fft, unscramble_hangs h3 h2] at h
    simp at h
  · rintro (rfl | ⟨p, rfl⟩)
    · rfl
    · obtain ⟨y, h, _⟩ := fft_correct p x inv
      rw [h]
      rfl

/-- Three points: the call hangs. -/
theorem fft_three_hangs (x : ℕ → ℂ) (inv : Bool) : fft x 3 inv = none := by
  have := (fft_returns_iff x 3 inv).not.mpr (by
    rintro (h | ⟨p, h⟩)
    · omega
    · rcases p with _ | _ | p
      · simp at h
      · simp at h
      · rw [pow_succ] at h
        omega)
  cases h : fft x 3 inv with
  | none => rfl
  | some y => rw [h] at this; simp at this

/-! ## the `fourier` command -/

theorem powLoop_spec : ∀ x y, ∃ p, powLoop x y = y * 2 ^ p ∧ x < 2 ^ p ∧ (0 < x → 2 ^ p ≤ 2 * x) ∧ (x = 0 → p = 0) := by
  intro x
  induction x using Nat.strong_induction_on with
  | _ x ih =>
    intro y
    rw [powLoop]
    by_cases h : 0 < x
    · rw [if_pos h]
      obtain ⟨p, h1, h2, h3, h4⟩ := ih (x / 2) (by omega) (2 * y)
      refine ⟨p + 1, by rw [h1]; ring, by rw [pow_succ]; omega, fun _ => ?_, by omega⟩
      rw [pow_succ]
      by_cases h5 : 0 < x / 2
      · have := h3 h5
        omega
      · have := h4 (by omega)
        subst this
        omega
    · rw [if_neg h]
      exact ⟨0, by simp, by omega, fun h' => absurd h' h, fun _ => rfl⟩

/-- The number of points is a power of two, more than twice the number of harmonics asked for, and not
more than four times that number (one point if no harmonic is asked for). -/
theorem points_spec {fstep fstop : ℝ} (hs : 0 < fstep) (hf : 0 ≤ fstop) :
    (∃ p, points fstep fstop = 2 ^ p) ∧ 2 * fstop < points fstep fstop * fstep ∧
    (fstep ≤ 2 * fstop → points fstep fstop * fstep ≤ 4 * fstop) := by
  obtain ⟨p, h1, h2, h3, _⟩ := powLoop_spec ⌊fstop * 2 / fstep⌋.toNat 1
  have hz : 0 ≤ fstop * 2 / fstep := by positivity
  have hfl : 0 ≤ ⌊fstop * 2 / fstep⌋ := Int.floor_nonneg.mpr hz
  rw [Nat.one_mul] at h1
  have e : points fstep fstop = 2 ^ p := h1
  have hcast : ((⌊fstop * 2 / fstep⌋.toNat : ℕ) : ℝ) = (⌊fstop * 2 / fstep⌋ : ℤ) := by
    have := Int.toNat_of_nonneg hfl
    exact_mod_cast congrArg (fun z : ℤ => (z : ℝ)) this
  refine ⟨⟨p, e⟩, ?_, ?_⟩
  · rw [e]
    have h4 : (⌊fstop * 2 / fstep⌋.toNat : ℝ) + 1 ≤ ((2 ^ p : ℕ) : ℝ) := by exact_mod_cast h2
    rw [hcast] at h4
    have h5 := Int.lt_floor_add_one (fstop * 2 / fstep)
    have h6 : fstop * 2 / fstep < ((2 ^ p : ℕ) : ℝ) := by linarith
    rw [div_lt_iff₀ hs] at h6
    linarith
  · intro hle
    have h7 : (1 : ℝ) ≤ fstop * 2 / fstep := by
      rw [le_div_iff₀ hs]
      linarith
    have h8 : 1 ≤ ⌊fstop * 2 / fstep⌋ := Int.le_floor.mpr (by exact_mod_cast h7)
    have h9 := h3 (by omega)
    have h10 : ((2 ^ p : ℕ) : ℝ) ≤ 2 * (⌊fstop * 2 / fstep⌋.toNat : ℝ) := by exact_mod_cast h9
    rw [hcast] at h10
    have h11 := Int.floor_le (fstop * 2 / fstep)
    have h12 : ((2 ^ p : ℕ) : ℝ) ≤ 2 * (fstop * 2 / fstep) := by linarith
    rw [e]
    calc ((2 ^ p : ℕ) : ℝ) * fstep ≤ 2 * (fstop * 2 / fstep) * fstep := by
          exact mul_le_mul_of_nonneg_right h12 hs.le
      _ = 4 * fstop := by field_simp; ring

/-- The transform of a sum of harmonics. -/
theorem dft_harmonics {n H : ℕ} (hn : 2 * H < n) (a0 : ℝ) (a φ : ℕ → ℝ) (x : ℕ → ℂ)
    (hx : ∀ j, j < n → x j = ((a0 + ∑ h ∈ range H, a (h + 1) *
      Real.cos (2 * Real.pi * (h + 1 : ℕ) * j / n + φ (h + 1)) : ℝ) : ℂ)) (k : ℕ) (hk : 2 * k ≤ n) :
    dft (-1) n x k / n = if k = 0 then (a0 : ℂ) else if k ≤ H then (a k / 2 : ℝ) * exp (φ k * I) else 0 := by
  have hpos : 0 < n := by omega
  have hn' : (n : ℂ) ≠ 0 := by exact_mod_cast hpos.ne'
  rw [dft_fwd]
  have term : ∀ j ∈ range n, x j * E n (-(k : ℤ) * j) = a0 * E n (-(k : ℤ) * j) +
      ∑ h ∈ range H, ((a (h + 1) / 2 : ℝ) * exp (φ (h + 1) * I) * E n (((h + 1 : ℕ) - (k : ℤ)) * j) +
        (a (h + 1) / 2 : ℝ) * exp (-(φ (h + 1) * I)) * E n ((-(h + 1 : ℕ) - (k : ℤ)) * j)) := by
    intro j hj
    rw [hx j (mem_range.mp hj)]
    push_cast
    rw [add_mul, sum_mul]
    congr 1
    refine sum_congr rfl fun h _ => ?_
    have e1 : (((h : ℤ) + 1) - (k : ℤ)) * j = ((h : ℤ) + 1) * j + -(k : ℤ) * j := by ring
    have e2 : (-1 + -(h : ℤ) - (k : ℤ)) * j = -(((h : ℤ) + 1) * j) + -(k : ℤ) * j := by ring
    have e2' : (-((h : ℤ) + 1) - (k : ℤ)) * j = -(((h : ℤ) + 1) * j) + -(k : ℤ) * j := by ring
    rw [e1, e2', E_add, E_add]
    have c : Complex.cos (2 * Real.pi * (h + 1) * j / n + φ (h + 1)) =
        (exp (φ (h + 1) * I) * E n (((h : ℤ) + 1) * j) + exp (-(φ (h + 1) * I)) * E n (-(((h : ℤ) + 1) * j))) / 2 := by
      rw [Complex.cos, E, E, ← exp_add, ← exp_add]
      push_cast
      congr 3
      · ring
      · ring
    rw [c]
    ring
  rw [sum_congr rfl term, sum_add_distrib, sum_comm]
  have s0 : ∑ j ∈ range n, (a0 : ℂ) * E n (-(k : ℤ) * j) = if k = 0 then (a0 : ℂ) * n else 0 := by
    rw [← mul_sum, E_sum hpos]
    by_cases h : k = 0
    · subst h
      simp
    · rw [if_neg h, if_neg, mul_zero]
      have := dvd_sub_iff (n := n) (a := 0) (b := k) hpos (by omega)
      simp only [Nat.cast_zero, zero_sub] at this
      rw [this]
      exact fun e => h e.symm
  have s1 : ∀ h ∈ range H, ∑ j ∈ range n, (((a (h + 1) / 2 : ℝ) : ℂ) * exp (φ (h + 1) * I) * E n (((h + 1 : ℕ) - (k : ℤ)) * j) +
        ((a (h + 1) / 2 : ℝ) : ℂ) * exp (-(φ (h + 1) * I)) * E n ((-(h + 1 : ℕ) - (k : ℤ)) * j)) =
      if h + 1 = k then ((a k / 2 : ℝ) : ℂ) * exp (φ k * I) * n else 0 := by
    intro h hh
    have hh' := mem_range.mp hh
    rw [sum_add_distrib, ← mul_sum, ← mul_sum, E_sum hpos, E_sum hpos]
    have d1 := dvd_sub_iff (n := n) (a := h + 1) (b := k) (by omega) (by omega)
    have d2 : ¬ (n : ℤ) ∣ (-(h + 1 : ℕ) - (k : ℤ)) := by
      rintro ⟨c, hc⟩
      have u : (h : ℤ) + 1 + k < n := by omega
      have v : -((h : ℤ) + 1) - k = n * c := by
        rw [← hc]
        push_cast
        ring
      have hp' : (0 : ℤ) < n := by omega
      rcases le_or_gt c (-1) with g | g
      · have := mul_le_mul_of_nonneg_left g hp'.le
        omega
      · have := mul_nonneg hp'.le (show 0 ≤ c by omega)
        omega
    rw [if_neg d2, mul_zero, add_zero]
    by_cases hk' : h + 1 = k
    · rw [if_pos (d1.mpr hk'), if_pos hk', hk']
    · rw [if_neg (fun e => hk' (d1.mp e)), if_neg hk', mul_zero]
  rw [s0, sum_congr rfl s1]
  by_cases h0 : k = 0
  · subst h0
    simp [hn']
  · rw [if_neg h0, if_neg h0, zero_add]
    by_cases h1 : k ≤ H
    · rw [if_pos h1, sum_eq_single (k - 1)]
      · rw [if_pos (by omega)]
        field_simp
      · intro b _ hb
        rw [if_neg (by omega)]
      · intro hb
        exact absurd (mem_range.mpr (by omega)) hb
    · rw [if_neg h1, sum_eq_zero]
      · simp
      · intro b hb
        have := mem_range.mp hb
        rw [if_neg (by omega)]

/-- `stepnum` from zero is the nearest multiple of the step. -/
theorem stepnum_nearest {step here : ℝ} (hs : 0 < step) (hh : 0 ≤ here) :
    |((stepnum 0 step here).toNat : ℝ) * step - here| ≤ step / 2 := by
  have hz : 0 ≤ (here - 0) / step + 1 / 2 := by
    rw [sub_zero]
    positivity
  have e : stepnum 0 step here = ⌊(here - 0) / step + 1 / 2⌋ := by
    simp only [stepnum]
    rw [if_pos hz]
  have hfl : 0 ≤ ⌊(here - 0) / step + 1 / 2⌋ := Int.floor_nonneg.mpr hz
  have hcast : ((⌊(here - 0) / step + 1 / 2⌋.toNat : ℕ) : ℝ) = (⌊(here - 0) / step + 1 / 2⌋ : ℤ) := by
    have := Int.toNat_of_nonneg hfl
    exact_mod_cast congrArg (fun z : ℤ => (z : ℝ)) this
  rw [e, hcast]
  have h1 := Int.floor_le ((here - 0) / step + 1 / 2)
  have h2 := Int.lt_floor_add_one ((here - 0) / step + 1 / 2)
  generalize (⌊(here - 0) / step + 1 / 2⌋ : ℝ) = f at h1 h2
  have e3 : ((here - 0) / step + 1 / 2) * step = here + step / 2 := by
    field_simp
    ring
  have h3 := mul_le_mul_of_nonneg_right h1 hs.le
  have h4 := mul_lt_mul_of_pos_right h2 hs
  rw [e3] at h3 h4
  rw [abs_le]
  constructor <;> nlinarith

/-- `find_max` gives the value of largest magnitude, zero only if they are all zero. -/
theorem findMax_spec (data : ℕ → ℂ) (start stop : ℕ) :
    (∀ i, start ≤ i → i ≤ stop → ‖data i‖ ≤ ‖findMax data start stop‖) ∧
    (findMax data start stop = 0 ∨ ∃ i, start ≤ i ∧ i ≤ stop ∧ findMax data start stop = data i) := by
  by_cases hle : start ≤ stop + 1
  · have key := forRange_inv (lo := start) (hi := stop + 1) (s := (0 : ℂ))
      (f := fun i m => if ‖m‖ < ‖data i‖ then data i else m)
      (P := fun k m => (∀ i, start ≤ i → i < k → ‖data i‖ ≤ ‖m‖) ∧ (m = 0 ∨ ∃ i, start ≤ i ∧ i < k ∧ m = data i))
      hle ⟨fun i h1 h2 => by omega, Or.inl rfl⟩
      (by
        rintro k m h1 h2 ⟨ih1, ih2⟩
        by_cases h : ‖m‖ < ‖data k‖
        · simp only [if_pos h]
          refine ⟨fun i g1 g2 => ?_, Or.inr ⟨k, h1, by omega, rfl⟩⟩
          by_cases e : i = k
          · rw [e]
          · exact (ih1 i g1 (by omega)).trans h.le
        · simp only [if_neg h]
          refine ⟨fun i g1 g2 => ?_, ?_⟩
          · by_cases e : i = k
            · rw [e]
              exact not_lt.mp h
            · exact ih1 i g1 (by omega)
          · rcases ih2 with ih2 | ⟨i, g1, g2, g3⟩
            · exact Or.inl ih2
            · exact Or.inr ⟨i, g1, by omega, g3⟩)
    refine ⟨fun i h1 h2 => key.1 i h1 (by omega), ?_⟩
    rcases key.2 with h | ⟨i, g1, g2, g3⟩
    · exact Or.inl h
    · exact Or.inr ⟨i, g1, by omega, g3⟩
  · refine ⟨fun i h1 h2 => by omega, Or.inl ?_⟩
    have : stop + 1 - start = 0 := by omega
    simp [findMax, forRange, this, forUp]

/-- A constant and the harmonics `1 … H` of the frequency `f`, with amplitudes and phases. -/
def wave (f a0 : ℝ) (H : ℕ) (a φ : ℕ → ℝ) (t : ℝ) : ℝ :=
  a0 + ∑ h ∈ range H, a (h + 1) * Real.cos (2 * Real.pi * ((h + 1 : ℕ) * f) * t + φ (h + 1))

/-- What the table should contain for that wave at the harmonic `i`. -/
def phasor (a0 : ℝ) (H : ℕ) (a φ : ℕ → ℝ) (i : ℕ) : ℂ :=
  if i = 0 then (a0 : ℂ) else if i ≤ H then a i * exp (φ i * I) else 0

/-- The `fourier` command, given the values of a wave without harmonics above `fstop` at the strobe
times, ends and prints, for the multiples of `fstep` from (nearest to) `fstart` to (nearest to)
`fstop`, the mean value and the amplitude and phase of each harmonic. -/
theorem fourier_correct {fstart fstop fstep : ℝ} (hs : 0 < fstep) (h0 : 0 ≤ fstart) (hf : 0 ≤ fstop)
    {H : ℕ} (hH : H * fstep ≤ fstop) (a0 : ℝ) (a φ : ℕ → ℝ) (data : ℕ → ℂ)
    (hx : ∀ j, j < points fstep fstop → data j = (wave fstep a0 H a φ (j * strobe fstep fstop) : ℝ)) :
    ∃ rows first last, final fstart fstop fstep data = some rows ∧
      |(first : ℕ) * fstep - fstart| ≤ fstep / 2 ∧ |(last : ℕ) * fstep - fstop| ≤ fstep / 2 ∧
      rows.map (fun r => (r.freq, r.actual)) =
        (List.range (last + 1 - first)).map fun k => (fstep * ((first + k : ℕ) : ℝ), phasor a0 H a φ (first + k)) := by
  obtain ⟨⟨p, hp⟩, hN, _⟩ := points_spec hs hf
  obtain ⟨y, h1, h2, _⟩ := fft_correct p data false
  have n1 := stepnum_nearest hs h0
  have n2 := stepnum_nearest hs hf
  refine ⟨foprint fstep (stepnum 0 fstep fstart).toNat (stepnum 0 fstep fstop).toNat y,
    (stepnum 0 fstep fstart).toNat, (stepnum 0 fstep fstop).toNat, ?_, n1, n2, ?_⟩
  · rw [final, hp, h1]
    rfl
  generalize (stepnum 0 fstep fstart).toNat = first at n1 ⊢
  generalize (stepnum 0 fstep fstop).toNat = last at n2 ⊢
  have npos : (0 : ℝ) < (points fstep fstop : ℕ) := by
    by_contra h
    have : (points fstep fstop : ℝ) * fstep ≤ 0 := mul_nonpos_of_nonpos_of_nonneg (not_lt.mp h) hs.le
    linarith
  have hH2 : 2 * H < points fstep fstop := by
    have : (2 * H : ℝ) * fstep < points fstep fstop * fstep := by linarith
    have := lt_of_mul_lt_mul_right this hs.le
    exact_mod_cast this
  have hl2 : 2 * last ≤ points fstep fstop := by
    have h3 := (abs_le.mp n2).2
    have : (2 * last : ℝ) * fstep < (points fstep fstop + 1) * fstep := by linarith
    have := lt_of_mul_lt_mul_right this hs.le
    have : 2 * last < points fstep fstop + 1 := by exact_mod_cast this
    omega
  have hy : ∀ k, 2 * k ≤ points fstep fstop → y k =
      if k = 0 then (a0 : ℂ) else if k ≤ H then (a k / 2 : ℝ) * exp (φ k * I) else 0 := by
    intro k hk
    rw [h2 k (by
      rw [← hp]
      omega), if_neg (by simp), ← hp]
    refine dft_harmonics hH2 a0 a φ data (fun j hj => ?_) k hk
    rw [hx j hj, wave]
    congr 2
    refine sum_congr rfl fun h _ => ?_
    congr 3
    rw [strobe]
    field_simp
  simp only [foprint, List.map_map]
  refine List.map_congr_left fun k hk => ?_
  have hk' := List.mem_range.mp hk
  simp only [Function.comp, row, Prod.mk.injEq, true_and]
  have h5 : 2 * (first + k) ≤ points fstep fstop := by omega
  by_cases e : first + k = 0
  · rw [e, Function.update_self, hy 0 (by omega)]
    simp [phasor]
  · rw [Function.update_of_ne e, hy _ h5, phasor, if_neg e, if_neg e]
    by_cases g : first + k ≤ H
    · rw [if_pos g, if_pos g]
      push_cast
      ring
    · rw [if_neg g, if_neg g, zero_mul]

/-- The columns "relative": the values divided by the largest one, so that none (but the mean value)
exceeds one in magnitude and, unless all are zero, one of them is one. -/
theorem relative_correct {fstep : ℝ} (hs : 0 < fstep) (first last : ℕ) (data : ℕ → ℂ) :
    ∃ M : ℂ, M ≠ 0 ∧ (∀ r ∈ foprint fstep first last data, r.relative = r.actual / 2 / M ∧
      (0 < r.freq → ‖r.relative‖ ≤ 1)) ∧
      ((∃ r ∈ foprint fstep first last data, 0 < r.freq ∧ r.actual ≠ 0) →
        ∃ r ∈ foprint fstep first last data, 0 < r.freq ∧ r.relative = 1) := by
  obtain ⟨m1, m2⟩ := findMax_spec data (max 1 first) last
  have mem : ∀ M r, r ∈ (List.range (last + 1 - first)).map
      (fun k => row fstep (Function.update data 0 (data 0 / 2)) M (first + k)) ↔
      ∃ i, first ≤ i ∧ i ≤ last ∧ r = row fstep (Function.update data 0 (data 0 / 2)) M i := by
    intro M r
    rw [List.mem_map]
    constructor
    · rintro ⟨k, hk, rfl⟩
      have := List.mem_range.mp hk
      exact ⟨first + k, by omega, by omega, rfl⟩
    · rintro ⟨i, h1, h2, rfl⟩
      refine ⟨i - first, List.mem_range.mpr (by omega), ?_⟩
      have : first + (i - first) = i := by omega
      simp only [this]
  have pos : ∀ i : ℕ, 0 < fstep * i → i ≠ 0 := by
    rintro i h rfl
    simp at h
  simp only [foprint]
  refine ⟨if findMax data (max 1 first) last = 0 then 1 else findMax data (max 1 first) last, ?_, ?_, ?_⟩
  · split
    · exact one_ne_zero
    · assumption
  · intro r hr
    obtain ⟨i, h1, h2, rfl⟩ := (mem _ r).mp hr
    refine ⟨?_, fun h => ?_⟩
    · simp only [row]
      ring
    · have hi := pos i h
      simp only [row, Function.update_of_ne hi, norm_div]
      have hm := m1 i (by omega) h2
      split
      · rename_i h3
        rw [h3, norm_zero] at hm
        simp
        linarith
      · rename_i h3
        rw [div_le_one (norm_pos_iff.mpr h3)]
        exact hm
  · rintro ⟨r, hr, h3, h4⟩
    obtain ⟨i, h1, h2, rfl⟩ := (mem _ r).mp hr
    have hi := pos i h3
    simp only [row, Function.update_of_ne hi] at h4
    have hne : findMax data (max 1 first) last ≠ 0 := by
      intro h5
      have hm := m1 i (by omega) h2
      rw [h5, norm_zero] at hm
      have : data i = 0 := norm_le_zero_iff.mp hm
      rw [this, zero_mul] at h4
      exact h4 rfl
    rcases m2 with h5 | ⟨k, g1, g2, g3⟩
    · exact absurd h5 hne
    · refine ⟨_, (mem _ _).mpr ⟨k, by omega, g2, rfl⟩, ?_, ?_⟩
      · simp only [row]
        have : (0 : ℝ) < k := by
          have : 0 < k := by omega
          exact_mod_cast this
        positivity
      · have hk : k ≠ 0 := by omega
        simp only [row, Function.update_of_ne hk]
        rw [if_neg hne, g3]
        exact div_self (by rw [← g3]; exact hne)

/-- The last line can be half the sampling frequency, and then shows twice the amplitude: with
`fstop = 3.6`, `fstep = 1` there are eight points, the last line is that of the harmonic 4, and for
`cos (2π 4 t)` it shows 2. -/
theorem half_sampling_wrong : ∃ rows, final 0 (18 / 5) 1 (fun j => (Real.cos (2 * Real.pi * 4 * (j * strobe 1 (18 / 5))) : ℝ)) = some rows ∧
    rows.map (fun r => (r.freq, r.actual)) = [(0, 0), (1, 0), (2, 0), (3, 0), (4, 2)] := by
  have hpt : points 1 (18 / 5) = 8 := by
    have : ⌊(18 / 5 * 2 / 1 : ℝ)⌋ = 7 := by
      rw [Int.floor_eq_iff]
      norm_num
    rw [points, toPowOf2, this]
    decide +kernel
  have hdata : (fun j : ℕ => ((Real.cos (2 * Real.pi * 4 * (j * strobe 1 (18 / 5))) : ℝ) : ℂ)) =
      fun j : ℕ => E 8 (4 * j) := by
    funext j
    rw [E, strobe, hpt]
    have e : (2 * Real.pi * (4 * j : ℤ) / (8 : ℕ) * I : ℂ) = ((Real.pi * j : ℝ) : ℂ) * I := by
      push_cast
      ring
    have e' : 2 * Real.pi * 4 * (j * (1 / 1 / (8 : ℕ))) = Real.pi * j := by
      push_cast
      ring
    rw [e, e', exp_mul_I, ← ofReal_cos, ← ofReal_sin, mul_comm Real.pi, Real.sin_nat_mul_pi]
    simp
  obtain ⟨y, h1, h2, _⟩ := fft_correct 3 (fun j : ℕ => E 8 (4 * j)) false
  have hy : ∀ k, k < 8 → y k = if k = 4 then 1 else 0 := by
    intro k hk
    have h3 := h2 k (by simpa using hk)
    have e8 : (2 ^ 3 : ℕ) = 8 := by norm_num
    rw [if_neg (by simp), e8, dft_fwd] at h3
    have h4 : ∀ j ∈ range 8, E 8 (4 * j) * E 8 (-(k : ℤ) * j) = E 8 (((4 : ℕ) - (k : ℤ)) * j) := by
      intro j _
      rw [← E_add]
      congr 1
      push_cast
      ring
    rw [sum_congr rfl h4, E_sum (by norm_num)] at h3
    rw [h3]
    by_cases hk4 : k = 4
    · subst hk4
      simp
    · rw [if_neg hk4, if_neg, zero_div]
      intro hd
      exact hk4 ((dvd_sub_iff (n := 8) (a := 4) (b := k) (by norm_num) hk).mp hd).symm
  have hstop : stepnum 0 1 (18 / 5) = 4 := by
    simp only [stepnum]
    rw [if_pos (by norm_num), Int.floor_eq_iff]
    norm_num
  have hstart : stepnum 0 1 0 = 0 := by
    simp only [stepnum]
    rw [if_pos (by norm_num), Int.floor_eq_iff]
    norm_num
  refine ⟨foprint 1 0 4 y, ?_, ?_⟩
  · rw [final, hpt, hdata, hstop, hstart]
    have e8 : (2 ^ 3 : ℕ) = 8 := by norm_num
    rw [e8] at h1
    rw [h1]
    rfl
  · simp [foprint, row, List.range_succ, hy, Function.update_of_ne]

/-- The hypotheses of `fourier_correct` are met, with something to see: a sine at the second harmonic
and a mean value. -/
example : ∃ rows first last, final 0 3 1 (fun j => (wave 1 5 2 (fun h => if h = 2 then 7 else 0) (fun _ => -Real.pi / 2)
      (j * strobe 1 3) : ℝ)) = some rows ∧ |(first : ℕ) * (1 : ℝ) - 0| ≤ 1 / 2 ∧ |(last : ℕ) * (1 : ℝ) - 3| ≤ 1 / 2 ∧
      rows.map (fun r => (r.freq, r.actual)) = (List.range (last + 1 - first)).map fun k =>
        (1 * ((first + k : ℕ) : ℝ), phasor 5 2 (fun h => if h = 2 then 7 else 0) (fun _ => -Real.pi / 2) (first + k)) :=
  fourier_correct one_pos le_rfl (by norm_num) (by norm_num) _ _ _ _ fun _ _ => rfl

end
end Gnucap.Fft
