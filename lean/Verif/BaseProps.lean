import Verif.BaseModel
import Mathlib.Tactic.Linarith
import Mathlib.Tactic.NormNum
import Mathlib.Tactic.FieldSimp
import Mathlib.Tactic.Ring
import Mathlib.Data.Rat.Cast.Order
import Mathlib.Data.Nat.Cast.Order.Field

/-!
# C41: numeric operators on mixed types

The specification is arithmetic on rational numbers: `number v` is the number a constant stands for, `arith o x y` what the operator
gives on numbers.
-/
namespace Gnucap.Base

/-- the number that a constant stands for -/
def number : Val → Option ℚ
  | .int v | .vint v => some v
  | .flt v | .vreal v => some v
  | .str _ | .vstr _ => none

/-- a truth value as a number -/
def truth (p : Prop) [Decidable p] : ℚ := if p then 1 else 0

/-- the quotient cut to an integer, towards 0: the integer of the sign of `q` and the largest size not above `|q|` -/
def IsTrunc (q : ℚ) (k : ℤ) : Prop := |(k : ℚ)| ≤ |q| ∧ |q| < |(k : ℚ)| + 1 ∧ 0 ≤ (k : ℚ) * q

/-- ordinary arithmetic; `none` where there is no result -/
def Arith (o : Op) (x y r : ℚ) : Prop :=
  match o with
  | .mul => r = x * y
  | .add => r = x + y
  | .sub => r = x - y
  | .div => y ≠ 0 ∧ r = x / y
  | .mod => y ≠ 0 ∧ ∃ k : ℤ, IsTrunc (x / y) k ∧ r = x - y * k
  | .eq => r = truth (x = y)
  | .ne => r = truth (x ≠ y)
  | .lt => r = truth (x < y)
  | .gt => r = truth (y < x)
  | .le => r = truth (x ≤ y)
  | .ge => r = truth (y ≤ x)
  | .or => r = truth (x ≠ 0 ∨ y ≠ 0)
  | .and => r = truth (x ≠ 0 ∧ y ≠ 0)

/-- an integer constant of either class -/
def isInt : Val → Bool
  | .int _ | .vint _ => true
  | _ => false

/-- a C++ object can hold it -/
def Valid : Val → Prop
  | .int v | .vint v => fits v = true
  | _ => True

theorem isTrunc_trunc (q : ℚ) : IsTrunc q (trunc q) := by
  unfold IsTrunc trunc
  split
  · rename_i h
    have h0 : (0 : ℚ) ≤ (⌊q⌋ : ℚ) := by exact_mod_cast Int.floor_nonneg.2 h
    rw [abs_of_nonneg h0, abs_of_nonneg h]
    exact ⟨Int.floor_le q, Int.lt_floor_add_one q, mul_nonneg h0 h⟩
  · rename_i h
    have hq : q < 0 := not_le.1 h
    have h0 : (⌈q⌉ : ℚ) ≤ 0 := by exact_mod_cast Int.ceil_le.2 (by simpa using hq.le)
    rw [abs_of_nonpos h0, abs_of_nonpos hq.le]
    exact ⟨by linarith [Int.le_ceil q], by linarith [Int.ceil_lt_add_one q], mul_nonneg_of_nonpos_of_nonpos h0 hq.le⟩

/-- truncation has one result -/
theorem isTrunc_unique {q : ℚ} {k l : ℤ} (hk : IsTrunc q k) (hl : IsTrunc q l) : k = l := by
  obtain ⟨a1, a2, a3⟩ := hk
  obtain ⟨b1, b2, b3⟩ := hl
  have h1 : |(k : ℚ)| < |(l : ℚ)| + 1 := lt_of_le_of_lt a1 b2
  have h2 : |(l : ℚ)| < |(k : ℚ)| + 1 := lt_of_le_of_lt b1 a2
  have e : |k| = |l| := by
    have h1' : |k| < |l| + 1 := by exact_mod_cast h1
    have h2' : |l| < |k| + 1 := by exact_mod_cast h2
    omega
  rcases lt_trichotomy q 0 with hq | hq | hq
  · have k0 : (k : ℚ) ≤ 0 := by by_contra h; push_neg at h; nlinarith
    have l0 : (l : ℚ) ≤ 0 := by by_contra h; push_neg at h; nlinarith
    have k0' : k ≤ 0 := by exact_mod_cast k0
    have l0' : l ≤ 0 := by exact_mod_cast l0
    rw [abs_of_nonpos k0', abs_of_nonpos l0'] at e; omega
  · subst hq
    have : |k| = 0 := by
      have : |(k : ℚ)| ≤ 0 := by simpa using a1
      have h' : |k| ≤ 0 := by exact_mod_cast this
      exact le_antisymm h' (abs_nonneg k)
    rw [this] at e
    rw [abs_eq_zero] at this
    rw [eq_comm, abs_eq_zero] at e
    omega
  · have k0 : (0 : ℚ) ≤ k := by by_contra h; push_neg at h; nlinarith
    have l0 : (0 : ℚ) ≤ l := by by_contra h; push_neg at h; nlinarith
    have k0' : 0 ≤ k := by exact_mod_cast k0
    have l0' : 0 ≤ l := by exact_mod_cast l0
    rw [abs_of_nonneg k0', abs_of_nonneg l0'] at e; omega

/-- C's integer quotient is the cut quotient -/
theorem isTrunc_tdiv (a b : ℤ) (hb : b ≠ 0) : IsTrunc ((a : ℚ) / (b : ℚ)) (a.tdiv b) := by
  have hb' : (b : ℚ) ≠ 0 := by exact_mod_cast hb
  have hbn : 0 < b.natAbs := Int.natAbs_pos.2 hb
  have hbq : (0 : ℚ) < (b.natAbs : ℚ) := by exact_mod_cast hbn
  have ea : |(a : ℚ)| = (a.natAbs : ℚ) := by rw [← Int.cast_abs, Int.abs_eq_natAbs]; simp
  have eb : |(b : ℚ)| = (b.natAbs : ℚ) := by rw [← Int.cast_abs, Int.abs_eq_natAbs]; simp
  have ek : |((a.tdiv b : ℤ) : ℚ)| = ((a.natAbs / b.natAbs : ℕ) : ℚ) := by
    rw [← Int.cast_abs, Int.abs_eq_natAbs, Int.natAbs_tdiv]; rfl
  refine ⟨?_, ?_, ?_⟩
  · rw [ek, abs_div, ea, eb]; exact Nat.cast_div_le
  · rw [ek, abs_div, ea, eb, div_lt_iff₀ hbq]
    have := Nat.lt_div_mul_add hbn (a := a.natAbs)
    have h2 : a.natAbs < (a.natAbs / b.natAbs + 1) * b.natAbs := by rw [add_mul]; omega
    exact_mod_cast h2
  · rw [← mul_div_assoc]
    rcases le_total 0 a with ha | ha <;> rcases lt_or_gt_of_ne hb with hb2 | hb2
    · have h : a.tdiv b ≤ 0 := Int.tdiv_nonpos_of_nonneg_of_nonpos ha hb2.le
      exact div_nonneg_of_nonpos (mul_nonpos_of_nonpos_of_nonneg (by exact_mod_cast h) (by exact_mod_cast ha)) (by exact_mod_cast hb2.le)
    · have h : 0 ≤ a.tdiv b := Int.tdiv_nonneg ha hb2.le
      exact div_nonneg (mul_nonneg (by exact_mod_cast h) (by exact_mod_cast ha)) (by exact_mod_cast hb2.le)
    · have h : 0 ≤ a.tdiv b := Int.tdiv_nonneg_of_nonpos_of_nonpos ha hb2.le
      exact div_nonneg_of_nonpos (mul_nonpos_of_nonneg_of_nonpos (by exact_mod_cast h) (by exact_mod_cast ha)) (by exact_mod_cast hb2.le)
    · have h : a.tdiv b ≤ 0 := by
        have := Int.tdiv_nonneg (a := -a) (b := b) (by omega) hb2.le
        rw [Int.neg_tdiv] at this; omega
      exact div_nonneg (mul_nonneg_of_nonpos_of_nonpos (by exact_mod_cast h) (by exact_mod_cast ha)) (by exact_mod_cast hb2.le)

/-- the exact integer result of an operator, where it is computed in `int32_t` -/
def intResult (o : Op) (a b : ℤ) : ℤ :=
  match o with
  | .mul => a * b
  | .add => a + b
  | .sub => a - b
  | .div | .mod => a.tdiv b
  | _ => 0

theorem mkBool_spec (b : Bool) (p : Prop) [Decidable p] (h : b = true ↔ p) :
    ∃ v r, mkBool b = .val v ∧ number v = some r ∧ r = truth p := by
  refine ⟨_, _, rfl, rfl, ?_⟩
  unfold truth
  by_cases hp : p
  · rw [if_pos hp, h.2 hp]; norm_num
  · rw [if_neg hp, if_neg (fun hb => hp (h.1 hb))]; norm_num

theorem mkVbool_spec (b : Bool) (p : Prop) [Decidable p] (h : b = true ↔ p) :
    ∃ v r, mkVbool b = .val v ∧ number v = some r ∧ r = truth p := by
  refine ⟨_, _, rfl, rfl, ?_⟩
  unfold truth
  by_cases hp : p
  · rw [if_pos hp, h.2 hp]; norm_num
  · rw [if_neg hp, if_neg (fun hb => hp (h.1 hb))]; norm_num

theorem toBool_number (a : Val) (x : ℚ) (ha : number a = some x) : toBool a = true ↔ x ≠ 0 := by
  cases a <;> simp only [number, Option.some.injEq, reduceCtorEq] at ha <;> subst ha <;> simp [toBool]

/-- the comparisons, for all four kinds of pairs -/
theorem cmp_arith (o : Op) (ho : o = .eq ∨ o = .ne ∨ o = .lt ∨ o = .gt ∨ o = .le ∨ o = .ge) (a b : Val) (x y : ℚ)
    (ha : number a = some x) (hb : number b = some y) :
    ∃ v r, binop o a b = .val v ∧ number v = some r ∧ Arith o x y r := by
  cases a <;> simp only [number, Option.some.injEq, reduceCtorEq] at ha <;> subst ha <;>
  cases b <;> simp only [number, Option.some.injEq, reduceCtorEq] at hb <;> subst hb <;>
  rcases ho with rfl | rfl | rfl | rfl | rfl | rfl <;>
  simp only [binop, equalOn, notEqualOn, lessOn, greaterOn, leqOn, geqOn, Arith] <;>
  first
    | apply mkBool_spec
    | apply mkVbool_spec
  all_goals
    try simp only [decide_eq_true_eq, gt_iff_lt, ge_iff_le]
    try first
      | exact Iff.rfl
      | exact eq_comm
      | exact ne_comm
      | exact Int.cast_lt.symm
      | exact Int.cast_le.symm
      | exact Int.cast_inj.symm.trans eq_comm
      | exact (not_congr Int.cast_inj.symm).trans ne_comm

theorem mkInt_spec (k : ℤ) : (∃ v r, mkInt k = .val v ∧ number v = some r ∧ r = (k : ℚ)) ∨ (fits k = false ∧ mkInt k = .ub) := by
  unfold mkInt
  cases h : fits k with
  | true => left; exact ⟨_, _, rfl, rfl, rfl⟩
  | false => right; exact ⟨rfl, rfl⟩

theorem mkVint_spec (k : ℤ) : (∃ v r, mkVint k = .val v ∧ number v = some r ∧ r = (k : ℚ)) ∨ (fits k = false ∧ mkVint k = .ub) := by
  unfold mkVint
  cases h : fits k with
  | true => left; exact ⟨_, _, rfl, rfl, rfl⟩
  | false => right; exact ⟨rfl, rfl⟩

/-- **C41.** `a op b` for numbers of any classes, except an integer `%` a real and an integer divided by a `vInteger`: the constant
that ordinary arithmetic gives.  Otherwise there is no number: the divisor is 0, or the integers' exact result does not fit. -/
theorem binop_arith_partial (o : Op) (a b : Val) (x y : ℚ) (ha : number a = some x) (hb : number b = some y)
    (hvb : Valid b)
    (hmod : o = .mod → isInt a = true → isInt b = true)
    (hdiv : o = .div → isInt a = true → ∀ k, b ≠ .vint k) :
    (∃ v r, binop o a b = .val v ∧ number v = some r ∧ Arith o x y r) ∨
    ((o = .div ∨ o = .mod) ∧ y = 0 ∧ (binop o a b = .special ∨ (binop o a b = .ub ∧ isInt a = true ∧ isInt b = true))) ∨
    (∃ k l : ℤ, x = k ∧ y = l ∧ isInt a = true ∧ isInt b = true ∧ fits (intResult o k l) = false ∧ binop o a b = .ub) := by
  have real : ∀ q : ℚ, ∃ v r, mkFlt q = .val v ∧ number v = some r ∧ r = q := fun q => ⟨_, _, rfl, rfl, rfl⟩
  have hfd : ∀ p q : ℚ, (∃ v r, fdiv p q = .val v ∧ number v = some r ∧ (q ≠ 0 ∧ r = p / q)) ∨ (q = 0 ∧ fdiv p q = .special) := by
    intro p q
    unfold fdiv
    by_cases h : q = 0
    · right; exact ⟨h, by rw [if_pos h]⟩
    · left; rw [if_neg h]; exact ⟨_, _, rfl, rfl, h, rfl⟩
  have hfm : ∀ p q : ℚ, (∃ v r, ffmod p q = .val v ∧ number v = some r ∧ (q ≠ 0 ∧ ∃ k : ℤ, IsTrunc (p / q) k ∧ r = p - q * k)) ∨
      (q = 0 ∧ ffmod p q = .special) := by
    intro p q
    unfold ffmod
    by_cases h : q = 0
    · right; exact ⟨h, by rw [if_pos h]⟩
    · left; rw [if_neg h]; exact ⟨_, _, rfl, rfl, h, _, isTrunc_trunc _, rfl⟩
  have him : ∀ (mk : ℤ → Out), (mk = mkInt ∨ mk = mkVint) → ∀ k l : ℤ, fits l = true →
      (∃ v r, imod mk k l = .val v ∧ number v = some r ∧ ((l : ℚ) ≠ 0 ∧ ∃ j : ℤ, IsTrunc ((k : ℚ) / l) j ∧ r = k - l * j)) ∨
      ((l : ℚ) = 0 ∧ imod mk k l = .ub) ∨ (fits (k.tdiv l) = false ∧ imod mk k l = .ub) := by
    intro mk hmk k l hl
    unfold imod
    by_cases h : l = 0
    · right; left; exact ⟨by exact_mod_cast h, by rw [if_pos (Or.inl h)]⟩
    · cases h2 : fits (k.tdiv l) with
      | false => right; right; exact ⟨rfl, by rw [if_pos (Or.inr rfl)]⟩
      | true =>
        left
        rw [if_neg (by simp [h])]
        have hf : fits (k.tmod l) = true := by
          have : (k.tmod l).natAbs < l.natAbs := by rw [Int.natAbs_tmod]; exact Nat.mod_lt _ (Int.natAbs_pos.2 h)
          simp only [fits, Bool.and_eq_true, decide_eq_true_eq] at hl ⊢
          omega
        have hr : ((k.tmod l : ℤ) : ℚ) = k - l * (k.tdiv l : ℤ) := by
          have : (l : ℚ) * (k.tdiv l : ℤ) + (k.tmod l : ℤ) = k := by exact_mod_cast Int.mul_tdiv_add_tmod k l
          linarith
        rcases hmk with rfl | rfl
        · exact ⟨.int (k.tmod l), _, by simp [mkInt, hf], rfl, by exact_mod_cast h, _, isTrunc_tdiv k l h, hr⟩
        · exact ⟨.vint (k.tmod l), _, by simp [mkVint, hf], rfl, by exact_mod_cast h, _, isTrunc_tdiv k l h, hr⟩
  cases o with
  | eq => exact Or.inl (cmp_arith _ (by simp) a b x y ha hb)
  | ne => exact Or.inl (cmp_arith _ (by simp) a b x y ha hb)
  | lt => exact Or.inl (cmp_arith _ (by simp) a b x y ha hb)
  | gt => exact Or.inl (cmp_arith _ (by simp) a b x y ha hb)
  | le => exact Or.inl (cmp_arith _ (by simp) a b x y ha hb)
  | ge => exact Or.inl (cmp_arith _ (by simp) a b x y ha hb)
  | or =>
    left
    simp only [binop, logicOr, Arith]
    apply mkBool_spec
    have h1 := toBool_number a x ha
    have h2 := toBool_number b y hb
    rw [← h1, ← h2]
    cases toBool a <;> simp
  | and =>
    left
    simp only [binop, logicAnd, Arith]
    apply mkBool_spec
    have h1 := toBool_number a x ha
    have h2 := toBool_number b y hb
    rw [← h1, ← h2]
    cases toBool a <;> simp
  | mul =>
    cases a <;> simp only [number, Option.some.injEq, reduceCtorEq] at ha <;> subst ha <;>
    cases b <;> simp only [number, Option.some.injEq, reduceCtorEq] at hb <;> subst hb <;>
    simp only [binop, multiplyOn, Arith] <;>
    first
      | (left; rw [mul_comm]; exact real _)
      | (left; exact real _)
      | (rename_i k l
         rcases mkInt_spec (l * k) with ⟨v, r, h1, h2, h3⟩ | ⟨h1, h2⟩
         · left; exact ⟨v, r, h1, h2, by rw [h3]; push_cast; ring⟩
         · right; right; exact ⟨k, l, rfl, rfl, rfl, rfl, by rw [intResult, mul_comm]; exact h1, h2⟩)
      | (rename_i k l
         rcases mkVint_spec (l * k) with ⟨v, r, h1, h2, h3⟩ | ⟨h1, h2⟩
         · left; exact ⟨v, r, h1, h2, by rw [h3]; push_cast; ring⟩
         · right; right; exact ⟨k, l, rfl, rfl, rfl, rfl, by rw [intResult, mul_comm]; exact h1, h2⟩)
  | add =>
    cases a <;> simp only [number, Option.some.injEq, reduceCtorEq] at ha <;> subst ha <;>
    cases b <;> simp only [number, Option.some.injEq, reduceCtorEq] at hb <;> subst hb <;>
    simp only [binop, isStr, addOn, Arith, Bool.false_eq_true, if_false] <;>
    first
      | (left; rw [add_comm]; exact real _)
      | (left; exact real _)
      | (rename_i k l
         rcases mkInt_spec (l + k) with ⟨v, r, h1, h2, h3⟩ | ⟨h1, h2⟩
         · left; exact ⟨v, r, h1, h2, by rw [h3]; push_cast; ring⟩
         · right; right; exact ⟨k, l, rfl, rfl, rfl, rfl, by rw [intResult, add_comm]; exact h1, h2⟩)
      | (rename_i k l
         rcases mkVint_spec (l + k) with ⟨v, r, h1, h2, h3⟩ | ⟨h1, h2⟩
         · left; exact ⟨v, r, h1, h2, by rw [h3]; push_cast; ring⟩
         · right; right; exact ⟨k, l, rfl, rfl, rfl, rfl, by rw [intResult, add_comm]; exact h1, h2⟩)
  | sub =>
    cases a <;> simp only [number, Option.some.injEq, reduceCtorEq] at ha <;> subst ha <;>
    cases b <;> simp only [number, Option.some.injEq, reduceCtorEq] at hb <;> subst hb <;>
    simp only [binop, rSubtractOn, Arith] <;>
    first
      | (left; exact real _)
      | (rename_i k l
         rcases mkInt_spec (k - l) with ⟨v, r, h1, h2, h3⟩ | ⟨h1, h2⟩
         · left; exact ⟨v, r, h1, h2, by rw [h3]; push_cast; ring⟩
         · right; right; exact ⟨k, l, rfl, rfl, rfl, rfl, h1, h2⟩)
      | (rename_i k l
         rcases mkVint_spec (k - l) with ⟨v, r, h1, h2, h3⟩ | ⟨h1, h2⟩
         · left; exact ⟨v, r, h1, h2, by rw [h3]; push_cast; ring⟩
         · right; right; exact ⟨k, l, rfl, rfl, rfl, rfl, h1, h2⟩)
  | div =>
    have fin : ∀ p q : ℚ, binop .div a b = fdiv p q → x = p → y = q →
        (∃ v r, binop .div a b = .val v ∧ number v = some r ∧ Arith .div x y r) ∨
        ((Op.div = .div ∨ Op.div = .mod) ∧ y = 0 ∧ (binop .div a b = .special ∨ (binop .div a b = .ub ∧ isInt a = true ∧ isInt b = true))) ∨
        (∃ k l : ℤ, x = k ∧ y = l ∧ isInt a = true ∧ isInt b = true ∧ fits (intResult .div k l) = false ∧ binop .div a b = .ub) := by
      intro p q h hx hy
      subst hx hy
      rw [h]
      rcases hfd x y with ⟨v, r, h1, h2, h3⟩ | ⟨h1, h2⟩
      · left; exact ⟨v, r, h1, h2, h3⟩
      · right; left; exact ⟨Or.inl rfl, h1, Or.inl h2⟩
    cases a <;> simp only [number, Option.some.injEq, reduceCtorEq] at ha <;> subst ha <;>
    cases b <;> simp only [number, Option.some.injEq, reduceCtorEq] at hb <;> subst hb <;>
    first
      | exact fin _ _ rfl rfl rfl
      | exact absurd rfl (hdiv rfl rfl _)
  | mod =>
    have fin : ∀ p q : ℚ, binop .mod a b = ffmod p q → x = p → y = q →
        (∃ v r, binop .mod a b = .val v ∧ number v = some r ∧ Arith .mod x y r) ∨
        ((Op.mod = .div ∨ Op.mod = .mod) ∧ y = 0 ∧ (binop .mod a b = .special ∨ (binop .mod a b = .ub ∧ isInt a = true ∧ isInt b = true))) ∨
        (∃ k l : ℤ, x = k ∧ y = l ∧ isInt a = true ∧ isInt b = true ∧ fits (intResult .mod k l) = false ∧ binop .mod a b = .ub) := by
      intro p q h hx hy
      subst hx hy
      rw [h]
      rcases hfm x y with ⟨v, r, h1, h2, h3⟩ | ⟨h1, h2⟩
      · left; exact ⟨v, r, h1, h2, h3⟩
      · right; left; exact ⟨Or.inr rfl, h1, Or.inl h2⟩
    have fin2 : ∀ mk, (mk = mkInt ∨ mk = mkVint) → ∀ k l : ℤ, fits l = true → binop .mod a b = imod mk k l → x = k → y = l →
        isInt a = true → isInt b = true →
        (∃ v r, binop .mod a b = .val v ∧ number v = some r ∧ Arith .mod x y r) ∨
        ((Op.mod = .div ∨ Op.mod = .mod) ∧ y = 0 ∧ (binop .mod a b = .special ∨ (binop .mod a b = .ub ∧ isInt a = true ∧ isInt b = true))) ∨
        (∃ k l : ℤ, x = k ∧ y = l ∧ isInt a = true ∧ isInt b = true ∧ fits (intResult .mod k l) = false ∧ binop .mod a b = .ub) := by
      intro mk hmk k l hl h hx hy hia hib
      rw [h]
      rcases him mk hmk k l hl with ⟨v, r, h1, h2, h3⟩ | ⟨h1, h2⟩ | ⟨h1, h2⟩
      · left; exact ⟨v, r, h1, h2, by rw [hx, hy]; exact h3⟩
      · right; left; exact ⟨Or.inr rfl, by rw [hy]; exact h1, Or.inr ⟨h2, hia, hib⟩⟩
      · right; right; exact ⟨k, l, hx, hy, hia, hib, h1, h2⟩
    cases a <;> simp only [number, Option.some.injEq, reduceCtorEq] at ha <;> subst ha <;>
    cases b <;> simp only [number, Option.some.injEq, reduceCtorEq] at hb <;> subst hb <;>
    first
      | exact fin _ _ rfl rfl rfl
      | exact fin2 _ (Or.inl rfl) _ _ hvb rfl rfl rfl rfl rfl
      | exact fin2 _ (Or.inr rfl) _ _ hvb rfl rfl rfl rfl rfl
      | exact absurd (hmod rfl rfl) Bool.false_ne_true

/-- `7.5 % 2`, `7 - 2.5`, `7 / 2` -/
example : binop .mod (.flt (15/2)) (.int 2) = .val (.flt (3/2)) ∧ binop .sub (.int 7) (.flt (5/2)) = .val (.flt (9/2)) ∧
    binop .div (.int 7) (.int 2) = .val (.flt (7/2)) := by decide +kernel

/-- **C41**, integer division: an integer divided by a `vInteger` is the quotient cut to an integer -/
theorem binop_div_vint (a : Val) (k l : ℤ) (ha : a = .int k ∨ a = .vint k) (hl : l ≠ 0) (hf : fits (k.tdiv l) = true) :
    ∃ j : ℤ, binop .div a (.vint l) = .val (.vint j) ∧ IsTrunc ((k : ℚ) / l) j := by
  refine ⟨k.tdiv l, ?_, isTrunc_tdiv k l hl⟩
  rcases ha with rfl | rfl <;> simp [binop, rDivideOn, idiv, hl, mkVint, hf]

example : binop .div (.vint (-7)) (.vint 2) = .val (.vint (-3)) := by decide +kernel

/-- **C41**, signs and negation: of the number, in the class of the legacy arithmetic -/
theorem unop_arith (o : Uop) (a : Val) (x : ℚ) (ha : number a = some x) (hv : Valid a) :
    (∃ v, unop o a = .val v ∧
      number v = some (match o with | .minus => -x | .plus => x | .not => truth (x = 0))) ∨
    (o = .minus ∧ isInt a = true ∧ x = -2147483648 ∧ unop o a = .ub) := by
  cases o with
  | not =>
    left
    obtain ⟨v, r, h1, h2, h3⟩ := mkBool_spec (!toBool a) (x = 0) (by
      have := toBool_number a x ha
      cases h : toBool a <;> simp [h] at this ⊢ <;> assumption)
    exact ⟨v, h1, by rw [h2, h3]⟩
  | plus =>
    left
    cases a <;> simp only [number, Option.some.injEq, reduceCtorEq] at ha <;> subst ha
    · rename_i k; simp only [Valid] at hv; exact ⟨.int k, by simp only [unop, plus, mkInt, hv, if_true], rfl⟩
    · rename_i k; simp only [Valid] at hv; exact ⟨.int k, by simp only [unop, plus, mkInt, hv, if_true], rfl⟩
    · exact ⟨_, rfl, rfl⟩
    · exact ⟨_, rfl, rfl⟩
  | minus =>
    cases a <;> simp only [number, Option.some.injEq, reduceCtorEq] at ha <;> subst ha
    all_goals first
      | exact Or.inl ⟨_, rfl, rfl⟩
      | (rename_i k
         simp only [Valid] at hv
         cases h : fits (-k) with
         | true => left; exact ⟨.int (-k), by simp [unop, minus, mkInt, h], by simp [number]⟩
         | false =>
           right
           refine ⟨rfl, rfl, ?_, by simp [unop, minus, mkInt, h]⟩
           have : k = -2147483648 := by
             simp only [fits, Bool.and_eq_true, decide_eq_true_eq, Bool.and_eq_false_iff, decide_eq_false_iff_not] at hv h
             omega
           rw [this]; norm_num)

example : unop .minus (.int 5) = .val (.int (-5)) ∧ unop .minus (.int (-2147483648)) = .ub := by decide +kernel

/-- m_base.h:351 has the operands of `%` the wrong way round: `7 % 2.5` gives 2.5 (2.5 `fmod` 7), although `7.0 % 2.5` gives 2 -/
theorem mod_int_real_wrong :
    binop .mod (.int 7) (.flt (5/2)) = .val (.flt (5/2)) ∧ binop .mod (.flt 7) (.flt (5/2)) = .val (.flt 2) ∧
    ¬ Arith .mod 7 (5/2) (5/2) := by
  refine ⟨by decide +kernel, by decide +kernel, ?_⟩
  rintro ⟨_, k, hk, h⟩
  have h2 : IsTrunc ((7 : ℚ) / (5/2)) 2 := by
    refine ⟨?_, ?_, ?_⟩ <;> norm_num [abs_of_pos]
  rw [isTrunc_unique hk h2] at h
  norm_num at h

/-- integer remainder by 0 traps -/
theorem mod_zero_ub : binop .mod (.int 7) (.int 0) = .ub := by decide +kernel

/-- the sum of two integers that does not fit is undefined, the same sum written with a real is not -/
theorem add_overflow_ub : binop .add (.int 2147483647) (.int 1) = .ub ∧ binop .add (.int 2147483647) (.flt 1) = .val (.flt 2147483648) := by
  decide +kernel

/-- In Verilog mode a sign turns a `vInteger` into an `Integer`: `7/2` is 3 but `7/(-2)` is -3.5 and `7/(+2)` is 3.5 -/
theorem vint_sign_wrong :
    binop .div (.vint 7) (.vint 2) = .val (.vint 3) ∧
    unop .plus (.vint 2) = .val (.int 2) ∧ binop .div (.vint 7) (.int 2) = .val (.flt (7/2)) ∧
    unop .minus (.vint 2) = .val (.int (-2)) ∧ binop .div (.vint 7) (.int (-2)) = .val (.flt (-7/2)) := by
  decide +kernel

/-- The class of a sum is the class of its right side, so in Verilog mode the order of the sum decides whether a division by it is cut:
with `!0` (an `Integer` 1) and 2 (a `vInteger`), `7/(!0 + 2)` is 2 but `7/(2 + !0)` is 7/3 -/
theorem vint_sum_order_wrong :
    unop .not (.vint 0) = .val (.int 1) ∧
    binop .add (.int 1) (.vint 2) = .val (.vint 3) ∧ binop .div (.vint 7) (.vint 3) = .val (.vint 2) ∧
    binop .add (.vint 2) (.int 1) = .val (.int 3) ∧ binop .div (.vint 7) (.int 3) = .val (.flt (7/3)) := by
  decide +kernel

/-- In Verilog mode `log` is to the base 10, but arithmetic on `vReal` gives a `Float`, and the sign of a `vInteger` an `Integer`: `log(100.)` is taken to the base
10 and `log(10.*10.)` is the natural logarithm of the same number -/
theorem log_base_wrong :
    logFn (.vreal 100) = some (.ten 100) ∧
    binop .mul (.vreal 10) (.vreal 10) = .val (.flt 100) ∧ logFn (.flt 100) = some (.natural 100) := by
  decide +kernel

/-- no arithmetic operator gives a `vReal` -/
theorem binop_not_vreal (o : Op) (a b : Val) (v : ℚ) : binop o a b ≠ .val (.vreal v) := by
  cases o <;> cases a <;> cases b <;>
  simp [binop, isStr, multiplyOn, addOn, rAddOn, rSubtractOn, rDivideOn, rModuloOn, equalOn, notEqualOn, lessOn, greaterOn, leqOn, geqOn,
    logicOr, logicAnd, mkBool, mkVbool, mkInt, mkVint, mkFlt, fdiv, ffmod, idiv, imod] <;> (repeat' split) <;> (intro h; cases h)

end Gnucap.Base
