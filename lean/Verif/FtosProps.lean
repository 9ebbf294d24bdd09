import Verif.NumProps

/-!
# Printing numbers (C46)
-/
namespace Gnucap.Num
open Gnucap.Scan

/-! ### the buffer -/

/-- what is left of the buffer is blank, and it ends with NUL -/
def Tail (l : List Char) : Prop := (∀ c ∈ l, c = ' ' ∨ c = nul) ∧ nul ∈ l ∧ l.getLast? = some nul

theorem Tail.drop {l : List Char} (h : Tail l) (n : ℕ) (hn : n < l.length) : Tail (l.drop n) := by
  have hl : (l.drop n).getLast? = some nul := by
    rw [List.getLast?_drop, if_neg (by omega)]; exact h.2.2
  exact ⟨fun c hc => h.1 c (List.mem_of_mem_drop hc), List.mem_of_getLast? hl, hl⟩

theorem Tail.cons {l : List Char} (h : Tail l) (c : Char) (hc : c = ' ' ∨ c = nul) : Tail (c :: l) := by
  refine ⟨?_, by simp [h.2.1], ?_⟩
  · intro x hx
    rcases List.mem_cons.mp hx with rfl | hx
    · exact hc
    · exact h.1 x hx
  · have := h.2.2
    cases l with
    | nil => simp at this
    | cons a l => rw [List.getLast?_cons_cons]; exact this

theorem blank_tail (fw len : ℕ) (hf : fw ≤ 39) (hl : len ≤ 33) : (blank fw len).pre = [] ∧ Tail (blank fw len).suf ∧ (blank fw len).suf.length = 40 := by
  have hm : max fw (len + 6) ≤ 39 := max_le hf (by omega)
  unfold blank
  refine ⟨rfl, ⟨?_, ?_, ?_⟩, ?_⟩
  · intro c hc
    rcases List.mem_append.mp hc with hc | hc
    · exact Or.inl (List.eq_of_mem_replicate hc)
    · exact Or.inr (List.eq_of_mem_replicate hc)
  · apply List.mem_append_right
    rw [List.mem_replicate]
    exact ⟨by omega, rfl⟩
  · rw [List.getLast?_append, List.getLast?_replicate, if_neg (by omega)]; rfl
  · simp only [List.length_append, List.length_replicate]; omega

theorem puts_eq (t : List Char) (b : Buf) (h : t.length ≤ b.suf.length) : puts t b = some ⟨b.pre ++ t, b.suf.drop t.length⟩ := by
  induction t generalizing b with
  | nil => simp [puts]
  | cons x t ih =>
    obtain ⟨pre, suf⟩ := b
    cases suf with
    | nil => simp at h
    | cons a suf =>
      simp only [puts, put, Option.bind_some]
      rw [ih _ (by simpa using h)]
      simp

theorem puts_append (s t : List Char) (b : Buf) : puts (s ++ t) b = (puts s b).bind (puts t) := by
  induction s generalizing b with
  | nil => simp [puts]
  | cons x s ih =>
    simp only [List.cons_append, puts]
    cases put x b with
    | none => rfl
    | some b => simp [ih]

/-! ### digits of a fraction -/

/-- (specification) the first `n` decimal digits of a number below 1 -/
def digs : ℕ → ℚ → List ℕ
  | 0, _ => []
  | n + 1, y => ⌊y * 10⌋.toNat :: digs n (y * 10 - ⌊y * 10⌋.toNat)

theorem digit_spec (y : ℚ) (h0 : 0 ≤ y) (h1 : y < 1) :
    ⌊y * 10⌋.toNat < 10 ∧ 0 ≤ y * 10 - (⌊y * 10⌋.toNat : ℚ) ∧ y * 10 - (⌊y * 10⌋.toNat : ℚ) < 1 := by
  have hp : 0 ≤ ⌊y * 10⌋ := Int.floor_nonneg.mpr (by linarith)
  have hc : ((⌊y * 10⌋.toNat : ℕ) : ℚ) = (⌊y * 10⌋ : ℚ) := by
    have : ((⌊y * 10⌋.toNat : ℕ) : ℤ) = ⌊y * 10⌋ := Int.toNat_of_nonneg hp
    exact_mod_cast this
  rw [hc]
  refine ⟨?_, by linarith [Int.floor_le (y * 10)], by linarith [Int.lt_floor_add_one (y * 10)]⟩
  have : ⌊y * 10⌋ < 10 := Int.floor_lt.mpr (by push_cast; linarith)
  omega

theorem digs_length (n : ℕ) (y : ℚ) : (digs n y).length = n := by
  induction n generalizing y with
  | zero => rfl
  | succ n ih => simp [digs, ih]

theorem digs_lt (n : ℕ) (y : ℚ) (h0 : 0 ≤ y) (h1 : y < 1) : ∀ d ∈ digs n y, d < 10 := by
  induction n generalizing y with
  | zero => simp [digs]
  | succ n ih =>
    obtain ⟨a, b, c⟩ := digit_spec y h0 h1
    intro d hd
    rcases List.mem_cons.mp hd with rfl | hd
    · exact a
    · exact ih _ b c d hd

theorem digs_value (n : ℕ) (y : ℚ) (h0 : 0 ≤ y) (h1 : y < 1) :
    (value (digs n y) : ℚ) ≤ y * 10 ^ n ∧ y * 10 ^ n < value (digs n y) + 1 := by
  induction n generalizing y with
  | zero => simp [digs, value]; exact ⟨h0, h1⟩
  | succ n ih =>
    obtain ⟨a, b, c⟩ := digit_spec y h0 h1
    obtain ⟨i1, i2⟩ := ih _ b c
    simp only [digs]
    rw [value_cons, digs_length]
    push_cast
    generalize ((⌊y * 10⌋.toNat : ℕ) : ℚ) = d at *
    rw [pow_succ]
    constructor
    · nlinarith
    · nlinarith

theorem digit_zero (y : ℚ) (h0 : 0 ≤ y) (h : y * 10 < 1) : ⌊y * 10⌋.toNat = 0 := by
  have : ⌊y * 10⌋ = 0 := Int.floor_eq_zero_iff.mpr ⟨by linarith, h⟩
  rw [this]; rfl

theorem digit_pos (y : ℚ) (h : 1 ≤ y * 10) : ⌊y * 10⌋.toNat ≠ 0 := by
  have : 1 ≤ ⌊y * 10⌋ := Int.le_floor.mpr (by exact_mod_cast h)
  omega

/-! ### the loops print digits -/

theorem fixedLoop_digits (k l : ℕ) (y : ℚ) (flg : ℕ) (b : Buf) (hk : l ≤ k) (hf : flg ≠ 0 ∨ 1 ≤ y * 10) :
    fixedLoop k l y flg b = puts ((digs l y).map dchar) b := by
  induction l generalizing k y flg b with
  | zero => cases k <;> rfl
  | succ l ih =>
    obtain ⟨k, rfl⟩ : ∃ k', k = k' + 1 := ⟨k - 1, by omega⟩
    have hne : flg + ⌊y * 10⌋.toNat ≠ 0 := by
      rcases hf with h | h
      · omega
      · have := digit_pos y h; omega
    simp only [fixedLoop, digs, List.map_cons, puts]
    cases hp : put (dchar ⌊y * 10⌋.toNat) b with
    | none => rfl
    | some b' =>
      simp only [Option.bind_some]
      rw [if_pos hne]
      exact ih k _ _ b' (by omega) (Or.inl hne)

/-- leading zeros do not count -/
theorem fixedLoop_zeros (lz k l : ℕ) (y : ℚ) (b : Buf) (hl : 1 ≤ l) (hk : l + lz ≤ k) (h0 : 0 ≤ y) (h1 : y * 10 ^ lz < 1)
    (h2 : 1 ≤ y * 10 ^ (lz + 1)) :
    fixedLoop k l y 0 b = puts ((List.replicate lz 0 ++ digs l (y * 10 ^ lz)).map dchar) b := by
  induction lz generalizing k y b with
  | zero =>
    simp only [pow_zero, mul_one, List.replicate_zero, List.nil_append]
    exact fixedLoop_digits k l y 0 b (by omega) (Or.inr (by simpa using h2))
  | succ lz ih =>
    obtain ⟨k, rfl⟩ : ∃ k', k = k' + 1 := ⟨k - 1, by omega⟩
    obtain ⟨l, rfl⟩ : ∃ l', l = l' + 1 := ⟨l - 1, by omega⟩
    have hp10 : (1 : ℚ) ≤ 10 ^ lz := one_le_pow₀ (by norm_num)
    have hy : y * 10 < 1 := by
      rw [pow_succ] at h1
      nlinarith [mul_nonneg h0 (by linarith : (0:ℚ) ≤ 10 ^ lz - 1)]
    have hd := digit_zero y h0 hy
    simp only [fixedLoop, hd, List.replicate_succ, List.cons_append, List.map_cons, puts]
    cases hp : put (dchar 0) b with
    | none => rfl
    | some b' =>
      simp only [Option.bind_some, Nat.cast_zero, sub_zero, add_zero, ne_eq, not_true_eq_false, if_false]
      rw [ih k (y * 10) b' (by omega) (by linarith) (by rw [pow_succ] at h1; linarith [h1]) (by rw [pow_succ] at h2; linarith [h2])]
      rw [show y * 10 ^ (lz + 1) = y * 10 * 10 ^ lz by ring]

theorem mantLoop_after (k l : ℕ) (iii : ℤ) (hi : iii < 0) (y : ℚ) (flg : ℕ) (b : Buf) (hk : l ≤ k) (hf : flg ≠ 0) :
    mantLoop k l iii y flg b = puts ((digs l y).map dchar) b := by
  induction l generalizing k y flg b iii with
  | zero => cases k <;> rfl
  | succ l ih =>
    obtain ⟨k, rfl⟩ : ∃ k', k = k' + 1 := ⟨k - 1, by omega⟩
    have hne : flg + ⌊y * 10⌋.toNat ≠ 0 := by omega
    simp only [mantLoop, digs, List.map_cons, puts]
    rw [if_pos hne]
    cases hp : put (dchar ⌊y * 10⌋.toNat) b with
    | none => rfl
    | some b' =>
      simp only [Option.bind_some]
      rw [if_neg hi.ne, if_pos hne]
      exact ih k (iii - 1) (by omega) _ _ b' (by omega) hne

theorem mantLoop_digits (j k l : ℕ) (y : ℚ) (flg : ℕ) (b : Buf) (hl : j + 1 ≤ l) (hk : l ≤ k) (hf : flg ≠ 0 ∨ 1 ≤ y * 10) :
    mantLoop k l j y flg b = puts (((digs l y).take (j + 1)).map dchar ++ '.' :: ((digs l y).drop (j + 1)).map dchar) b := by
  induction j generalizing k l y flg b with
  | zero =>
    obtain ⟨k, rfl⟩ : ∃ k', k = k' + 1 := ⟨k - 1, by omega⟩
    obtain ⟨l, rfl⟩ : ∃ l', l = l' + 1 := ⟨l - 1, by omega⟩
    have hne : flg + ⌊y * 10⌋.toNat ≠ 0 := by
      rcases hf with h | h
      · omega
      · have := digit_pos y h; omega
    simp only [mantLoop, digs, zero_add, List.take_succ_cons, List.take_zero, List.drop_succ_cons, List.drop_zero, List.map_cons,
      List.map_nil, List.cons_append, List.nil_append, puts]
    rw [if_pos hne]
    cases hp : put (dchar ⌊y * 10⌋.toNat) b with
    | none => rfl
    | some b' =>
      simp only [Option.bind_some, Nat.cast_zero, if_true]
      cases hp : put '.' b' with
      | none => rfl
      | some b'' =>
        simp only [Option.bind_some]
        rw [if_pos hne]
        exact mantLoop_after k l _ (by norm_num) _ _ b'' (by omega) hne
  | succ j ih =>
    obtain ⟨k, rfl⟩ : ∃ k', k = k' + 1 := ⟨k - 1, by omega⟩
    obtain ⟨l, rfl⟩ : ∃ l', l = l' + 1 := ⟨l - 1, by omega⟩
    have hne : flg + ⌊y * 10⌋.toNat ≠ 0 := by
      rcases hf with h | h
      · omega
      · have := digit_pos y h; omega
    have hj : ((j + 1 : ℕ) : ℤ) ≠ 0 := by omega
    have hj1 : ((j + 1 : ℕ) : ℤ) - 1 = (j : ℤ) := by push_cast; ring
    simp only [mantLoop, digs, List.take_succ_cons, List.drop_succ_cons, List.map_cons, List.cons_append, puts]
    rw [if_pos hne]
    cases hp : put (dchar ⌊y * 10⌋.toNat) b with
    | none => rfl
    | some b' =>
      simp only [Option.bind_some]
      rw [if_neg hj, if_pos hne, hj1]
      exact ih k l _ _ b' (by omega) (by omega) (Or.inl hne)

/-- leading zeros are not printed -/
theorem mantLoop_zeros (lz j k l : ℕ) (y : ℚ) (b : Buf) (hz : lz ≤ j) (hl : j + 1 - lz ≤ l) (hk : l + lz ≤ k) (h0 : 0 ≤ y)
    (h1 : y * 10 ^ lz < 1) (h2 : 1 ≤ y * 10 ^ (lz + 1)) :
    mantLoop k l j y 0 b = puts (((digs l (y * 10 ^ lz)).take (j + 1 - lz)).map dchar ++ '.' ::
      ((digs l (y * 10 ^ lz)).drop (j + 1 - lz)).map dchar) b := by
  induction lz generalizing j k y b with
  | zero =>
    simp only [pow_zero, mul_one, Nat.sub_zero]
    exact mantLoop_digits j k l y 0 b (by omega) (by omega) (Or.inr (by simpa using h2))
  | succ lz ih =>
    obtain ⟨k, rfl⟩ : ∃ k', k = k' + 1 := ⟨k - 1, by omega⟩
    obtain ⟨l, rfl⟩ : ∃ l', l = l' + 1 := ⟨l - 1, by omega⟩
    obtain ⟨j, rfl⟩ : ∃ j', j = j' + 1 := ⟨j - 1, by omega⟩
    have hp10 : (1 : ℚ) ≤ 10 ^ lz := one_le_pow₀ (by norm_num)
    have hy : y * 10 < 1 := by
      rw [pow_succ] at h1
      nlinarith [mul_nonneg h0 (by linarith : (0:ℚ) ≤ 10 ^ lz - 1)]
    have hd := digit_zero y h0 hy
    have hj : ((j + 1 : ℕ) : ℤ) ≠ 0 := by omega
    have hj1 : ((j + 1 : ℕ) : ℤ) - 1 = (j : ℤ) := by push_cast; ring
    simp only [mantLoop, hd, Nat.cast_zero, sub_zero, add_zero, ne_eq, not_true_eq_false, if_false, Option.bind_some]
    rw [if_neg hj]
    simp only [Option.bind_some]
    rw [hj1, ih j k (y * 10) b (by omega) (by omega) (by omega) (by linarith) (by rw [pow_succ] at h1; linarith [h1])
      (by rw [pow_succ] at h2; linarith [h2])]
    rw [show y * 10 ^ (lz + 1) = y * 10 * 10 ^ lz by ring, show j + 1 + 1 - (lz + 1) = j + 1 - lz by omega]

/-! ### trailing zeros -/

theorem strip_eq (fw : ℕ) (a : List Char) (fp : List ℕ) (hf : ∀ d ∈ fp, d < 10) (suf : List Char) (hs : Tail suf) :
    ∃ fp' k suf', fp = fp' ++ List.replicate k 0 ∧ Tail suf' ∧ suf'.length = suf.length + k ∧
      strip fw (a ++ '.' :: fp.map dchar).reverse suf = some ⟨a ++ '.' :: fp'.map dchar, suf'⟩ := by
  induction fp using List.reverseRecOn generalizing suf with
  | nil =>
    refine ⟨[], 0, suf, rfl, hs, rfl, ?_⟩
    simp only [List.map_nil, List.reverse_append, List.reverse_cons, List.reverse_nil, List.nil_append, List.cons_append, strip]
    rw [if_neg (by decide)]
    simp
  | append_singleton fp d ih =>
    have hr : (a ++ '.' :: (fp ++ [d]).map dchar).reverse = dchar d :: (a ++ '.' :: fp.map dchar).reverse := by simp
    rw [hr]
    simp only [strip]
    have hd := hf d (by simp)
    by_cases h0 : d = 0
    · subst h0
      rw [if_pos (by rfl)]
      obtain ⟨fp', k, suf', e1, e2, e3, e4⟩ := ih (fun x hx => hf x (by simp [hx])) _
        (hs.cons (if (a ++ '.' :: fp.map dchar).reverse.length < fw then ' ' else nul) (by split <;> simp))
      refine ⟨fp', k + 1, suf', ?_, e2, ?_, e4⟩
      · rw [List.replicate_succ', ← List.append_assoc, ← e1]
      · rw [e3]; simp; omega
    · have hne : dchar d ≠ '0' := by
        intro he
        have := congrArg Char.toNat he
        rw [dchar_toNat d hd] at this
        have h48 : ('0' : Char).toNat = 48 := rfl
        omega
      rw [if_neg hne]
      exact ⟨fp ++ [d], 0, suf, by simp, hs, rfl, by simp⟩

theorem value_zeros (ip fp : List ℕ) (k : ℕ) :
    (value (ip ++ (fp ++ List.replicate k 0)) : ℚ) / 10 ^ (fp ++ List.replicate k 0).length = (value (ip ++ fp) : ℚ) / 10 ^ fp.length := by
  have hz : value (List.replicate k 0) = 0 := by
    induction k with
    | zero => rfl
    | succ k ih => rw [List.replicate_succ, value_cons, ih]; simp
  rw [← List.append_assoc, value_append, hz]
  simp only [List.length_append, List.length_replicate, add_zero]
  push_cast
  rw [pow_add]
  field_simp

/-! ### the suffix -/

/-- digits of an exponent -/
def expDs (n : ℕ) : List ℕ := if n < 10 then [n] else if n < 100 then [n / 10, n % 10] else [n / 100, n / 10 % 10, n % 10]

theorem toDigits_eq : ∀ n < 1000, Nat.toDigits 10 n = (expDs n).map dchar := by decide +kernel

theorem expDs_value (n : ℕ) (h : n < 1000) : value (expDs n) = n ∧ (∀ d ∈ expDs n, d < 10) ∧ expDs n ≠ [] := by
  unfold expDs
  split
  · simp [value]; omega
  · split
    · simp [value]; omega
    · simp [value]; omega

/-- what `sprintf` writes is an exponent -/
theorem expText_eq (e : ℤ) (h1 : -100 < e) (h2 : e < 1000) : ∃ sg pad, (expText e).length = 4 ∧
    expText e = (Suffix.exp true sg (expDs e.natAbs) []).text ++ List.replicate pad ' ' ∧
    (fun u => (Suffix.exp true sg (expDs e.natAbs) []).factor u) = fun _ => (10 : ℚ) ^ e := by
  have hn : e.natAbs < 1000 := by omega
  have hd := toDigits_eq e.natAbs hn
  have hlen : ((expDs e.natAbs).map dchar).length = (expDs e.natAbs).length := by simp
  obtain ⟨hv, -, -⟩ := expDs_value e.natAbs hn
  unfold expText
  simp only [hd]
  by_cases h100 : e < 100
  · rw [if_pos h100]
    have hl : (expDs e.natAbs).length ≤ 2 ∧ 1 ≤ (expDs e.natAbs).length := by
      unfold expDs; split
      · simp
      · rw [if_pos (by omega)]; simp
    refine ⟨some (decide (e < 0)), 2 - (expDs e.natAbs).length, ?_, ?_, ?_⟩
    · simp only [List.length_cons, List.length_append, List.length_replicate, hlen, List.cons_append]; omega
    · by_cases h0 : e < 0 <;> simp [h0, Suffix.text, sgnText]
    · funext u
      simp only [Suffix.factor, hv]
      by_cases h0 : e < 0
      · simp only [h0, decide_true, if_true]; congr 1; omega
      · simp only [h0, decide_false]
        rw [if_neg (by simp)]
        congr 1; omega
  · rw [if_neg h100]
    have hl : (expDs e.natAbs).length = 3 := by
      unfold expDs; rw [if_neg (by omega), if_neg (by omega)]; rfl
    refine ⟨none, 0, ?_, ?_, ?_⟩
    · simp [hl]
    · simp [Suffix.text, sgnText, hl]
    · funext u
      simp only [Suffix.factor, hv]
      rw [if_neg (by simp)]
      congr 1; omega

/-- what is printed behind the digits means the power of ten it stands for -/
def SuffixOk (n : Suffix) (e : ℤ) : Prop :=
  (match n with
    | .exp _ _ ds unit => ds ≠ [] ∧ (∀ d ∈ ds, d < 10) ∧ value ds ≤ intMax ∧ ∀ c ∈ unit, isAlpha c = true
    | .word w => Word w) ∧ (∀ u, n.factor u = (10 : ℚ) ^ e) ∧ (∀ c ∈ n.text, c ≠ nul ∧ isGraph c = true)

theorem suffixOk_none : SuffixOk (.word []) 0 := by
  refine ⟨⟨by simp, by simp⟩, fun u => ?_, by simp [Suffix.text]⟩
  cases u <;> decide +kernel

theorem suffixOk_letter (c : Char) (e : ℤ) (h : (c, e) ∈ [('f', (-15 : ℤ)), ('p', -12), ('n', -9), ('u', -6), ('K', 3), ('G', 9)]) :
    SuffixOk (.word [c]) e := by
  simp only [List.mem_cons, List.not_mem_nil, or_false, Prod.mk.injEq] at h
  rcases h with ⟨rfl, rfl⟩ | ⟨rfl, rfl⟩ | ⟨rfl, rfl⟩ | ⟨rfl, rfl⟩ | ⟨rfl, rfl⟩ | ⟨rfl, rfl⟩ <;>
    exact ⟨⟨by simp, by simp; decide⟩, fun u => by cases u <;> decide +kernel, by simp [Suffix.text]; decide⟩

theorem suffixOk_meg : SuffixOk (.word ['M', 'e', 'g']) 6 :=
  ⟨⟨by simp; decide, by simp; decide⟩, fun u => by cases u <;> decide +kernel, by simp [Suffix.text]; decide⟩

theorem dchar_graph (d : ℕ) (h : d < 10) : dchar d ≠ nul ∧ isGraph (dchar d) = true := by
  interval_cases d <;> exact ⟨by decide, rfl⟩

theorem suffixOk_exp (sg : Option Bool) (e : ℤ) (h1 : -100 < e) (h2 : e < 1000)
    (hf : (fun u => (Suffix.exp true sg (expDs e.natAbs) []).factor u) = fun _ => (10 : ℚ) ^ e) : SuffixOk (.exp true sg (expDs e.natAbs) []) e := by
  obtain ⟨a, b, c⟩ := expDs_value e.natAbs (by omega)
  refine ⟨⟨c, b, by rw [a]; unfold intMax; omega, by simp⟩, fun u => congrFun hf u, ?_⟩
  intro x hx
  simp only [Suffix.text, if_true, List.append_nil, List.cons_append, List.mem_cons, List.mem_append, List.mem_map] at hx
  rcases hx with rfl | hx | ⟨d, hd, rfl⟩
  · decide
  · cases sg with
    | none => simp [sgnText] at hx
    | some s => cases s <;> simp [sgnText] at hx <;> subst hx <;> decide
  · exact dchar_graph d (b d hd)

/-- the whole buffer after appending: digits, suffix, blanks -/
theorem suffix_eq (fexp : Bool) (expo : ℤ) (j : ℤ) (hj : expo = 3 * j) (h1 : -100 < expo) (h2 : expo < 1000) (h3 : expo ≠ -3) (b : Buf)
    (hs : Tail b.suf) (hl : expo ≠ 0 → 5 ≤ b.suf.length) (hM : b.pre.getLast? ≠ some 'M') :
    ∃ n b' rest, suffix fexp expo b = some b' ∧ b'.pre ++ b'.suf = b.pre ++ n.text ++ rest ∧ Tail rest ∧ SuffixOk n expo := by
  obtain ⟨pre, suf⟩ := b
  unfold suffix
  by_cases h0 : expo = 0
  · rw [if_pos h0]
    simp only [Option.bind_some]
    rw [if_neg hM]
    exact ⟨.word [], _, suf, rfl, by simp [Suffix.text], hs, h0 ▸ suffixOk_none⟩
  · rw [if_neg h0]
    have hl := hl h0
    by_cases he : fexp = true ∨ 10 < expo ∨ expo < -16
    · rw [if_pos he]
      have h4 : 4 < suf.length := by simp only at hl; omega
      simp only [List.getElem?_eq_getElem h4]
      obtain ⟨sg, pad, e1, e2, e3⟩ := expText_eq expo h1 h2
      have hlt : (expText expo ++ [nul]).length = 5 := by simp [e1]
      rw [hlt, if_neg (by simp only at hl; omega)]
      have ht : (expText expo ++ [nul] ++ suf.drop 5).take 4 = expText expo := by
        rw [List.append_assoc, List.take_append_of_le_length (by omega), List.take_of_length_le (by omega)]
      have hdr : (expText expo ++ [nul] ++ suf.drop 5).drop 4 = nul :: suf.drop 5 := by
        rw [List.append_assoc, List.drop_append_of_le_length (by omega), List.drop_of_length_le (by omega)]; rfl
      simp only [ht, hdr, put, Option.bind_some]
      have hc : suf[4] = ' ' ∨ suf[4] = nul := hs.1 _ (List.getElem_mem h4)
      rw [if_neg (by
        rw [List.getLast?_append]
        simp only [List.getLast?_singleton, Option.some_or, Option.some.injEq]
        rcases hc with hc | hc <;> rw [hc] <;> decide)]
      refine ⟨.exp true sg (expDs expo.natAbs) [], _, List.replicate pad ' ' ++ suf.drop 4, rfl, ?_, ?_, suffixOk_exp sg expo h1 h2 e3⟩
      · simp only [List.append_assoc]
        have h5 : suf[4] :: suf.drop 5 = suf.drop 4 := (List.drop_eq_getElem_cons h4).symm
        rw [List.singleton_append, h5, e2, List.append_assoc]
      · have := hs.drop 4 h4
        clear e2
        induction pad with
        | zero => simpa using this
        | succ p ih => rw [List.replicate_succ, List.cons_append]; exact ih.cons ' ' (Or.inl rfl)
    · rw [if_neg he]
      push Not at he
      have hcase : expo = -15 ∨ expo = -12 ∨ expo = -9 ∨ expo = -6 ∨ expo = 3 ∨ expo = 6 ∨ expo = 9 := by omega
      have hput : ∀ x : Char, put x ⟨pre, suf⟩ = some ⟨pre ++ [x], suf.drop 1⟩ := by
        intro x
        cases suf with
        | nil => simp at hl
        | cons a s => rfl
      have one : ∀ (c : Char) (e : ℤ), (c, e) ∈ [('f', (-15 : ℤ)), ('p', -12), ('n', -9), ('u', -6), ('K', 3), ('G', 9)] →
          ['f', 'p', 'n', 'u', 'm', ' ', 'K', 'M', 'G', 'T'][((e + 15) / 3).toNat]? = some c → c ≠ 'M' →
          ∃ n b' rest, ((match ['f', 'p', 'n', 'u', 'm', ' ', 'K', 'M', 'G', 'T'][((e + 15) / 3).toNat]? with
            | none => none
            | some c => put c ⟨pre, suf⟩).bind fun b => if b.pre.getLast? = some 'M' then (put 'e' b).bind (put 'g') else some b) = some b' ∧
            b'.pre ++ b'.suf = pre ++ n.text ++ rest ∧ Tail rest ∧ SuffixOk n e := by
        intro c e hce hget hcM
        rw [hget]
        simp only [hput, Option.bind_some]
        rw [if_neg (by rw [List.getLast?_append]; simpa using hcM)]
        exact ⟨.word [c], _, suf.drop 1, rfl, by simp [Suffix.text], hs.drop 1 (by simp only at hl; omega), suffixOk_letter c e hce⟩
      rcases hcase with rfl | rfl | rfl | rfl | rfl | rfl | rfl
      · exact one 'f' (-15) (by simp) (by decide) (by decide)
      · exact one 'p' (-12) (by simp) (by decide) (by decide)
      · exact one 'n' (-9) (by simp) (by decide) (by decide)
      · exact one 'u' (-6) (by simp) (by decide) (by decide)
      · exact one 'K' 3 (by simp) (by decide) (by decide)
      · have hget : ['f', 'p', 'n', 'u', 'm', ' ', 'K', 'M', 'G', 'T'][(((6 : ℤ) + 15) / 3).toNat]? = some 'M' := by decide
        simp only [hget, hput, Option.bind_some]
        rw [if_pos (by rw [List.getLast?_append]; simp)]
        obtain ⟨a1, a2, a3, a4, r, hr⟩ : ∃ a1 a2 a3 a4 r, suf = a1 :: a2 :: a3 :: a4 :: r := by
          match suf, hl with
          | a1 :: a2 :: a3 :: a4 :: r, _ => exact ⟨a1, a2, a3, a4, r, rfl⟩
        refine ⟨.word ['M', 'e', 'g'], ⟨pre ++ ['M'] ++ ['e'] ++ ['g'], suf.drop 3⟩, suf.drop 3, ?_, by simp [Suffix.text],
          hs.drop 3 (by simp only at hl; omega), suffixOk_meg⟩
        rw [hr]
        simp [put]
      · exact one 'G' 9 (by simp) (by decide) (by decide)

/-! ### the printed text -/

theorem takeWhile_blank (l : List Char) (h : Tail l) : ∀ c ∈ l.takeWhile (· ≠ nul), c = ' ' := by
  intro c hc
  have h1 : c ≠ nul := by simpa using List.all_eq_true.mp (List.all_takeWhile (p := fun x => decide (x ≠ nul)) (l := l)) c hc
  have h2 := h.1 c ((List.takeWhile_sublist _).subset hc)
  rcases h2 with h2 | h2
  · exact h2
  · exact absurd h2 h1

/-- digits and suffix, then blanks -/
theorem finish_eq (fw : ℕ) (b : Buf) (t rest : List Char) (hb : b.pre ++ b.suf = t ++ rest) (ht : ∀ c ∈ t, c ≠ nul)
    (hg : ∃ c, t.getLast? = some c ∧ isGraph c = true) (hr : Tail rest) : ∃ bl, finish fw b = some (t ++ bl) ∧ ∀ c ∈ bl, c = ' ' := by
  unfold finish cstr
  have hmem : nul ∈ b.pre ++ b.suf := by rw [hb]; exact List.mem_append_right _ hr.2.1
  rw [if_pos hmem, hb]
  have htw : (t ++ rest).takeWhile (· ≠ nul) = t ++ rest.takeWhile (· ≠ nul) :=
    List.takeWhile_append_of_pos (by intro c hc; simpa using ht c hc)
  rw [htw]
  simp only [Option.map_some]
  have hbl := takeWhile_blank rest hr
  generalize rest.takeWhile (· ≠ nul) = bl at hbl
  by_cases h0 : fw = 0
  · rw [if_pos h0]
    refine ⟨[], ?_, by simp⟩
    rw [List.append_nil, List.reverse_append]
    have hdrop : ∀ l : List Char, (∀ c ∈ l, c = ' ') → (l ++ t.reverse).dropWhile (fun c => !isGraph c) = t.reverse := by
      intro l hl
      induction l with
      | nil =>
        obtain ⟨c, hc1, hc2⟩ := hg
        rcases List.eq_nil_or_concat t with rfl | ⟨t', x, rfl⟩
        · simp at hc1
        · simp at hc1
          subst hc1
          simp [hc2]
      | cons c l ih =>
        have : c = ' ' := hl c (by simp)
        subst this
        rw [List.cons_append, List.dropWhile_cons, if_pos (by rfl)]
        exact ih (fun x hx => hl x (by simp [hx]))
    rw [hdrop bl.reverse (fun c hc => hbl c (List.mem_reverse.mp hc)), List.reverse_reverse]
  · rw [if_neg h0]
    exact ⟨bl, rfl, hbl⟩

/-- the sign that is printed -/
def sgChar : Option Bool → Char
  | none => ' '
  | some true => '-'
  | some false => '+'

/-- the text is read as this number, also with more behind it if it ends with a blank -/
def Reads (s : List Char) (v : ℚ) : Prop := ∀ u r, (r = [] ∨ s.getLast? = some ' ') → ctof u (s ++ r) = .num v (skipcom r)

theorem Reads.alone {s : List Char} {v : ℚ} (h : Reads s v) (u : Units) : ctof u s = .num v [] := by
  have := h u [] (.inl rfl)
  rw [List.append_nil] at this
  rw [this]
  rfl

/-- **the printed text is a numeral**: from the digits in the buffer on -/
theorem print_tail (fw : ℕ) (fmt : Fmt) (sg : Option Bool) (ip fp : List ℕ) (hip : ∀ d ∈ ip, d < 10) (hfp : ∀ d ∈ fp, d < 10) (hne : ip ≠ [])
    (expo j : ℤ) (hj : expo = 3 * j) (h1 : -100 < expo) (h2 : expo < 1000) (h3 : expo ≠ -3)
    (b : Buf) (hb : b.pre = sgChar sg :: (ip.map dchar ++ '.' :: fp.map dchar)) (hs : Tail b.suf) (hl : expo ≠ 0 → 5 ≤ b.suf.length) :
    ∃ s, (((if fmt.fill then some b else strip fw b.pre.reverse b.suf).bind fun b => suffix fmt.exp expo b).bind (finish fw)) = some s ∧
      Reads s ((if sg = some true then -1 else 1) * ((value (ip ++ fp) : ℚ) / 10 ^ fp.length) * 10 ^ expo) := by
  -- after the trailing zeros
  obtain ⟨fp', b1, e1, e2, e3, e4, e5, e6⟩ : ∃ fp' b1, (if fmt.fill then some b else strip fw b.pre.reverse b.suf) = some b1 ∧
      b1.pre = sgChar sg :: (ip.map dchar ++ '.' :: fp'.map dchar) ∧ Tail b1.suf ∧ (expo ≠ 0 → 5 ≤ b1.suf.length) ∧
      (value (ip ++ fp') : ℚ) / 10 ^ fp'.length = (value (ip ++ fp) : ℚ) / 10 ^ fp.length ∧ ∀ d ∈ fp', d < 10 := by
    cases fmt.fill with
    | true => exact ⟨fp, b, rfl, hb, hs, hl, rfl, hfp⟩
    | false =>
      obtain ⟨fp', k, suf', g1, g2, g3, g4⟩ := strip_eq fw (sgChar sg :: ip.map dchar) fp hfp b.suf hs
      refine ⟨fp', ⟨sgChar sg :: (ip.map dchar ++ '.' :: fp'.map dchar), suf'⟩, ?_, rfl, g2, ?_, ?_, ?_⟩
      · rw [hb]
        simpa using g4
      · intro h; have := hl h; simp only; omega
      · rw [g1, value_zeros]
      · intro d hd; exact hfp d (by rw [g1]; simp [hd])
  rw [e1]
  simp only [Option.bind_some]
  have hM : b1.pre.getLast? ≠ some 'M' := by
    rw [e2, ← List.cons_append, List.getLast?_append]
    rcases List.eq_nil_or_concat fp' with rfl | ⟨l, d, rfl⟩
    · simp
    · have hdd := dchar_ne d (e6 d (by simp)) 'M' rfl
      have : ('.' :: (l ++ [d]).map dchar).getLast? = some (dchar d) := by
        rw [List.map_append, ← List.cons_append, List.getLast?_append]; simp
      rw [List.concat_eq_append, this]
      simpa using hdd
  obtain ⟨n, b2, rest, f1, f2, f3, f4⟩ := suffix_eq fmt.exp expo j hj h1 h2 h3 b1 e3 e4 hM
  rw [f1]
  simp only [Option.bind_some]
  rw [e2] at f2
  -- as a numeral
  let N : Numeral := ⟨sg, ip, true, fp', n⟩
  have hN : N.Wf := ⟨hip, e6, (by intro h; cases h), Or.inl hne, f4.1⟩
  have htext : sgChar sg :: (ip.map dchar ++ '.' :: fp'.map dchar) ++ n.text = (if sg = none then [' '] else []) ++ N.text := by
    cases sg with
    | none => simp [N, Numeral.text, sgnText, sgChar]
    | some s => cases s <;> simp [N, Numeral.text, sgnText, sgChar]
  rw [htext] at f2
  have hgraph : ∀ c ∈ N.text, c ≠ nul ∧ isGraph c = true := by
    intro c hc
    simp only [N, Numeral.text, if_true, List.mem_append, List.mem_map, List.mem_singleton] at hc
    rcases hc with (((hc | ⟨d, hd, rfl⟩) | rfl) | ⟨d, hd, rfl⟩) | hc
    · cases sg with
      | none => simp [sgnText] at hc
      | some s => cases s <;> simp [sgnText] at hc <;> subst hc <;> decide
    · exact dchar_graph d (hip d hd)
    · decide
    · exact dchar_graph d (e6 d hd)
    · exact f4.2.2 c hc
  have hNne : N.text ≠ [] := by simp [N, Numeral.text]
  obtain ⟨bl, g1, g2⟩ := finish_eq fw b2 _ rest f2 (by
      intro c hc
      rcases List.mem_append.mp hc with hc | hc
      · have : c = ' ' := by
          split at hc
          · simpa using hc
          · simp at hc
        rw [this]; decide
      · exact (hgraph c hc).1) (by
      refine ⟨N.text.getLast hNne, ?_, (hgraph _ (List.getLast_mem hNne)).2⟩
      rw [List.getLast?_append, List.getLast?_eq_some_getLast hNne]; rfl) f3
  refine ⟨_, g1, ?_⟩
  intro u r hr
  have hstop : Stops (bl ++ r) := by
    intro c hc
    cases bl with
    | nil =>
      rcases hr with rfl | hr
      · simp at hc
      · exfalso
        rw [List.append_nil, List.getLast?_append, List.getLast?_eq_some_getLast hNne] at hr
        have h1 := (hgraph _ (List.getLast_mem hNne)).2
        have h2 : N.text.getLast hNne = ' ' := by simpa using hr
        rw [h2] at h1
        exact absurd h1 (by decide)
    | cons x bl =>
      have hx : x = c := by simpa using hc
      have := g2 x (by simp)
      rw [← hx, this]
      decide
  rw [List.append_assoc, ctof_numeral u N hN _ (bl ++ r) (by
    intro c hc
    split at hc
    · have : c = ' ' := by simpa using hc
      rw [this]; rfl
    · simp at hc) hstop]
  have hskip : skipcom (bl ++ r) = skipcom r := by
    have : ∀ l : List Char, (∀ c ∈ l, c = ' ') → skipbl (l ++ r) = skipbl r := by
      intro l hl
      induction l with
      | nil => rfl
      | cons c l ih =>
        rw [List.cons_append, hl c (by simp)]
        conv_lhs => unfold skipbl
        rw [if_neg (by decide), ih fun x hx => hl x (by simp [hx])]
    unfold skipcom; rw [this bl g2]
  rw [hskip]
  congr 1
  show (if sg = some true then (-1 : ℚ) else 1) * ((value (ip ++ fp') : ℚ) / 10 ^ fp'.length) * n.factor u = _
  rw [f4.2.1 u, e5]

/-! ### scaling -/

theorem scaleSmall_eq (k : ℕ) (n : ℚ) (e : ℤ) (hn : 0 < n) (h : 1 / 1000 ≤ n * 1000 ^ k) :
    ∃ (i : ℕ) (x : ℚ), scaleSmall (k + 1) n e = some (x, e - 3 * i) ∧ x = n * 1000 ^ i ∧ 1 / 1000 ≤ x ∧ (x < 1 ∨ i = 0) := by
  induction k generalizing n e with
  | zero =>
    refine ⟨0, n, ?_, by simp, by simpa using h, Or.inr rfl⟩
    simp only [scaleSmall]
    rw [if_neg (by simp at h; simp; linarith)]
    simp
  | succ k ih =>
    rw [scaleSmall]
    split
    · rename_i hlt
      obtain ⟨i, x, h1, h2, h3, h4⟩ := ih (n * 1000) (e - 3) (by linarith) (by rw [pow_succ] at h; linarith)
      refine ⟨i + 1, x, ?_, ?_, h3, ?_⟩
      · rw [h1]; push_cast; congr 2; ring
      · rw [h2]; ring
      · left
        rcases h4 with h4 | h4
        · exact h4
        · rw [h2, h4]; linarith
    · rename_i hlt
      exact ⟨0, n, by simp, by simp, not_lt.mp hlt, Or.inr rfl⟩

theorem scaleBig_eq (k : ℕ) (n : ℚ) (e : ℤ) (hn : 1 / 1000 ≤ n) (h : n < 1000 ^ k) :
    ∃ (i : ℕ) (x : ℚ), scaleBig (k + 1) n e = some (x, e + 3 * i) ∧ n = x * 1000 ^ i ∧ 1 / 1000 ≤ x ∧ x < 1 := by
  induction k generalizing n e with
  | zero =>
    refine ⟨0, n, ?_, by simp, hn, by simpa using h⟩
    simp only [scaleBig]
    rw [if_neg (by simp at h; linarith)]
    simp
  | succ k ih =>
    rw [scaleBig]
    split
    · rename_i hge
      obtain ⟨i, x, h1, h2, h3, h4⟩ := ih (n * (1 / 1000)) (e + 3) (by linarith) (by rw [pow_succ] at h; linarith)
      refine ⟨i + 1, x, ?_, ?_, h3, h4⟩
      · rw [h1]; push_cast; congr 2; ring
      · rw [pow_succ, ← mul_assoc, ← h2]; ring
    · rename_i hge
      exact ⟨0, n, by simp, by simp, hn, not_le.mp hge⟩

theorem bigbig_lt : bigbig < 10 ^ 309 := by decide +kernel

/-- both loops: the number is `x · 10^(e+3)` -/
theorem scale_eq (n : ℚ) (h1 : 1 / 10 ^ 99 ≤ n) (h2 : n < bigbig) :
    ∃ (x : ℚ) (e j : ℤ), ((scaleSmall 400 n (-3)).bind fun (x, e) => scaleBig 400 x e) = some (x, e) ∧ n = x * (10 : ℚ) ^ (e + 3) ∧
      1 / 1000 ≤ x ∧ x < 1 ∧ e = 3 * j ∧ -100 < e ∧ e < 309 := by
  have hpos : (0 : ℚ) < n := lt_of_lt_of_le (by positivity) h1
  obtain ⟨i, x1, a1, a2, a3, a4⟩ := scaleSmall_eq 399 n (-3) hpos (by
    have : (1 : ℚ) / 1000 ≤ 1 / 10 ^ 99 * 1000 ^ 399 := by decide +kernel
    exact this.trans (mul_le_mul_of_nonneg_right h1 (by decide +kernel)))
  have hx1 : x1 < 1000 ^ 399 := by
    rcases a4 with h | h
    · exact h.trans_le (one_le_pow₀ (by norm_num))
    · rw [a2, h, pow_zero, mul_one]
      exact (h2.trans bigbig_lt).trans (by decide +kernel)
  obtain ⟨i', x, b1, b2, b3, b4⟩ := scaleBig_eq 399 x1 (-3 - 3 * i) a3 hx1
  have hn : n = x * (10 : ℚ) ^ ((-3 - 3 * i + 3 * i' : ℤ) + 3) := by
    have e1 : (10 : ℚ) ^ ((-3 - 3 * i + 3 * i' : ℤ) + 3) = 1000 ^ i' / 1000 ^ i := by
      rw [show ((-3 - 3 * i + 3 * i' : ℤ) + 3) = 3 * (i' : ℤ) - 3 * (i : ℤ) by ring, zpow_sub₀ (by norm_num), zpow_mul, zpow_mul]
      norm_num
    rw [e1]
    have h5 : (1000 : ℚ) ^ i ≠ 0 := by positivity
    rw [mul_div_assoc', ← b2, a2]
    field_simp
  refine ⟨x, -3 - 3 * i + 3 * i', -1 - i + i', ?_, hn, b3, b4, by ring, ?_, ?_⟩
  · rw [a1]; simp only [Option.bind_some]; exact b1
  · -- 10^-99 ≤ x 10^(e+3) < 10^(e+3)
    by_contra hc
    have hle : (-3 - 3 * i + 3 * i' : ℤ) + 3 ≤ -99 := by omega
    have h5 : (10 : ℚ) ^ ((-3 - 3 * i + 3 * i' : ℤ) + 3) ≤ (10 : ℚ) ^ (-99 : ℤ) := zpow_le_zpow_right₀ (by norm_num) hle
    have h6 : (10 : ℚ) ^ (-99 : ℤ) = 1 / 10 ^ 99 := by rw [zpow_neg]; norm_num
    have h7 : (0 : ℚ) < (10 : ℚ) ^ ((-3 - 3 * i + 3 * i' : ℤ) + 3) := zpow_pos (by norm_num) _
    rw [h6] at h5
    nlinarith
  · by_contra hc
    have hle : 309 ≤ (-3 - 3 * i + 3 * i' : ℤ) := by omega
    have h5 : (10 : ℚ) ^ ((309 : ℤ) + 3) ≤ (10 : ℚ) ^ ((-3 - 3 * i + 3 * i' : ℤ) + 3) := zpow_le_zpow_right₀ (by norm_num) (by omega)
    have h6 : (10 : ℚ) ^ ((309 : ℤ) + 3) = 10 ^ 309 * 1000 := by decide +kernel
    have h7 := bigbig_lt
    rw [h6] at h5
    have h9 : (1 : ℚ) / 1000 * (10 ^ 309 * 1000) ≤ n := by
      rw [hn]
      exact mul_le_mul b3 h5 (by decide +kernel) (by linarith)
    have h10 : (1 : ℚ) / 1000 * (10 ^ 309 * 1000) = 10 ^ 309 := by decide +kernel
    rw [h10] at h9
    linarith

/-! ### rounding -/

/-- leading zeros of a number between .001 and 1 -/
theorem exists_lz (y : ℚ) (h1 : 1 / 1000 ≤ y) (h2 : y < 1) : ∃ lz : ℕ, lz ≤ 2 ∧ y * 10 ^ lz < 1 ∧ 1 ≤ y * 10 ^ (lz + 1) := by
  by_cases h : y < 1 / 100
  · exact ⟨2, le_rfl, by norm_num; linarith, by norm_num; linarith⟩
  · by_cases h' : y < 1 / 10
    · exact ⟨1, by norm_num, by norm_num; linarith, by norm_num; linarith⟩
    · exact ⟨0, by norm_num, by norm_num; linarith, by norm_num; linarith⟩

theorem rnd_eq (L lzx : ℕ) (x : ℚ) (hz : lzx ≤ 2) (h1 : x * 10 ^ lzx < 1) (h2 : 1 ≤ x * 10 ^ (lzx + 1)) :
    rnd L x = (1 / 2) / 10 ^ (L + lzx) := by
  unfold rnd
  interval_cases lzx
  · norm_num at h1 h2
    rw [if_neg (by linarith), if_neg (by linarith)]; simp
  · norm_num at h1 h2
    rw [if_neg (by linarith), if_pos (by linarith)]
    rw [pow_succ]; field_simp
  · norm_num at h1 h2
    rw [if_pos (by linarith)]
    rw [pow_add]; field_simp; norm_num

/-- the printed fraction: at most half a unit away from `x` -/
theorem round_close (L : ℕ) (hL : 1 ≤ L) (x y : ℚ) (lzx lz : ℕ) (hx1 : x * 10 ^ lzx < 1) (hx2 : 1 ≤ x * 10 ^ (lzx + 1)) (h0 : 0 ≤ x)
    (hy : y = x + (1 / 2) / 10 ^ (L + lzx)) (hy1 : y * 10 ^ lz < 1) (hy2 : 1 ≤ y * 10 ^ (lz + 1)) :
    (value (digs L (y * 10 ^ lz)) : ℚ) / 10 ^ (L + lz) ≤ y ∧
    x - (1 / 2) / 10 ^ (L + lzx) ≤ (value (digs L (y * 10 ^ lz)) : ℚ) / 10 ^ (L + lz) := by
  have hr : (0 : ℚ) < (1 / 2) / 10 ^ (L + lzx) := by positivity
  have hy0 : 0 ≤ y := by rw [hy]; linarith
  obtain ⟨d1, d2⟩ := digs_value L (y * 10 ^ lz) (by positivity) hy1
  have hP : (0 : ℚ) < 10 ^ (L + lz) := by positivity
  have hsplit : y * 10 ^ lz * 10 ^ L = y * 10 ^ (L + lz) := by rw [pow_add]; ring
  rw [hsplit] at d1 d2
  refine ⟨by rw [div_le_iff₀ hP]; exact d1, ?_⟩
  rw [le_div_iff₀ hP]
  by_cases hcase : lzx ≤ lz
  · by_cases heq : lz = lzx
    · rw [heq] at d2 ⊢
      generalize (value (digs L (y * 10 ^ lzx)) : ℚ) = D at *
      have hQ : (10 : ℚ) ^ (L + lzx) ≠ 0 := by positivity
      have : (1 / 2 : ℚ) / 10 ^ (L + lzx) * 10 ^ (L + lzx) = 1 / 2 := div_mul_cancel₀ _ hQ
      rw [hy, add_mul, this] at d2
      rw [sub_mul, this]
      linarith
    · exfalso
      have hle : (10 : ℚ) ^ (lzx + 1) ≤ 10 ^ lz := pow_le_pow_right₀ (by norm_num) (by omega)
      have h5 : x * 10 ^ (lzx + 1) ≤ y * 10 ^ lz := mul_le_mul (by rw [hy]; linarith) hle (by positivity) hy0
      linarith
  · push Not at hcase
    have hD : (10 : ℚ) ^ (L - 1) ≤ (value (digs L (y * 10 ^ lz)) : ℚ) := by
      have h3 : (10 : ℚ) ^ (L - 1) ≤ y * 10 ^ (L + lz) := by
        have : y * 10 ^ (L + lz) = y * 10 ^ (lz + 1) * 10 ^ (L - 1) := by
          rw [mul_assoc, ← pow_add]; congr 2; omega
        rw [this]
        have h5 : (0:ℚ) < 10 ^ (L - 1) := by positivity
        nlinarith
      have h4 : (10 : ℚ) ^ (L - 1) < (value (digs L (y * 10 ^ lz)) : ℚ) + 1 := lt_of_le_of_lt h3 d2
      have h5 : (10 ^ (L - 1) : ℕ) < value (digs L (y * 10 ^ lz)) + 1 := by exact_mod_cast h4
      have h6 : (10 ^ (L - 1) : ℕ) ≤ value (digs L (y * 10 ^ lz)) := by omega
      exact_mod_cast h6
    have hxs : x * 10 ^ (L + lz) ≤ 10 ^ (L - 1) := by
      -- x < 10^-lzx ≤ 10^-(lz+1)
      have e1 : x * 10 ^ (lz + 1) ≤ x * 10 ^ lzx := mul_le_mul_of_nonneg_left (pow_le_pow_right₀ (by norm_num) (by omega)) h0
      have : x * 10 ^ (L + lz) = x * 10 ^ (lz + 1) * 10 ^ (L - 1) := by
        rw [mul_assoc, ← pow_add]; congr 2; omega
      rw [this]
      have h5 : (0:ℚ) < 10 ^ (L - 1) := by positivity
      nlinarith
    nlinarith [mul_pos hr hP]

/-- rounding up to 1: prints 1 -/
theorem round_up_close (L : ℕ) (hL : 1 ≤ L) (x y : ℚ) (lz : ℕ) (hx : x < 1) (r : ℚ) (hr : 0 < r) (hy : 1 ≤ y) (hy2 : y < 2) (hz : lz ≤ 2)
    (h1 : y * (1 / 1000) * 10 ^ lz < 1) (h2 : 1 ≤ y * (1 / 1000) * 10 ^ (lz + 1)) :
    (value (digs L (y * (1 / 1000) * 10 ^ lz)) : ℚ) / 10 ^ (L + lz) * 1000 ≤ y ∧
    x - r ≤ (value (digs L (y * (1 / 1000) * 10 ^ lz)) : ℚ) / 10 ^ (L + lz) * 1000 := by
  have hlz : lz = 2 := by
    interval_cases lz
    · norm_num at h2; linarith
    · norm_num at h2; linarith
    · rfl
  obtain ⟨d1, d2⟩ := digs_value L (y * (1 / 1000) * 10 ^ lz) (by positivity) h1
  subst hlz
  generalize value (digs L (y * (1 / 1000) * 10 ^ 2)) = D at *
  have hP : (0 : ℚ) < 10 ^ L := by positivity
  have e : (10 : ℚ) ^ (L + 2) = 10 ^ L * 100 := by rw [pow_add]; norm_num
  have eL : (10 : ℚ) ^ L = 10 ^ (L - 1) * 10 := by rw [← pow_succ]; congr 1; omega
  have e3 : (D : ℚ) / 10 ^ (L + 2) * 1000 = (D : ℚ) * 10 / 10 ^ L := by rw [e]; field_simp; ring
  rw [e3]
  constructor
  · rw [div_le_iff₀ hP]; nlinarith
  · have h3 : (10 : ℚ) ^ (L - 1) < (D : ℚ) + 1 := by
      have hP1 : (0 : ℚ) < 10 ^ (L - 1) := by positivity
      rw [eL] at d2
      nlinarith
    have h5 : (10 ^ (L - 1) : ℕ) < D + 1 := by exact_mod_cast h3
    have h6 : (10 : ℚ) ^ (L - 1) ≤ (D : ℚ) := by
      have : (10 ^ (L - 1) : ℕ) ≤ D := by omega
      exact_mod_cast this
    have : 1 ≤ (D : ℚ) * 10 / 10 ^ L := by rw [le_div_iff₀ hP, eL]; linarith
    linarith

/-- digits and suffix printed for the scaled value -/
theorem mantissa_print (fw L : ℕ) (fmt : Fmt) (hL3 : 3 ≤ L) (hL : L ≤ 33) (sg : Option Bool) (y : ℚ) (hy1 : 1 / 1000 ≤ y) (hy2 : y < 1)
    (lz : ℕ) (hz : lz ≤ 2) (hz1 : y * 10 ^ lz < 1) (hz2 : 1 ≤ y * 10 ^ (lz + 1)) (expo j : ℤ) (hj : expo = 3 * j) (h1 : -100 < expo)
    (h2 : expo < 1000) (b : Buf) (hb : b.pre = [sgChar sg]) (hs : Tail b.suf) (hl : b.suf.length = 39) :
    ∃ s, ((((if expo = -3 then (puts ['0', '.'] b).bind (fixedLoop (L + 3) L y 0) else mantLoop (L + 3) L 2 y 0 b).bind fun b =>
        (if fmt.fill then some b else strip fw b.pre.reverse b.suf).bind fun b => suffix fmt.exp (if expo = -3 then 0 else expo) b)).bind
        (finish fw)) = some s ∧
      Reads s ((if sg = some true then -1 else 1) * ((value (digs L (y * 10 ^ lz)) : ℚ) / 10 ^ (L + lz) * 10 ^ (expo + 3))) := by
  have hy0 : 0 ≤ y := by linarith
  have hd10 : ∀ d ∈ digs L (y * 10 ^ lz), d < 10 := digs_lt L _ (by positivity) hz1
  have hdl := digs_length L (y * 10 ^ lz)
  by_cases he : expo = -3
  · simp only [he, if_true]
    rw [puts_eq _ b (by simp [hl])]
    simp only [Option.bind_some]
    rw [fixedLoop_zeros lz (L + 3) L y _ (by omega) (by omega) hy0 hz1 hz2]
    rw [puts_eq _ _ (by simp [hl, hdl]; omega)]
    simp only [Option.bind_some]
    obtain ⟨s, s1, s2⟩ := print_tail fw fmt sg [0] (List.replicate lz 0 ++ digs L (y * 10 ^ lz)) (by simp)
      (by
        intro d hd
        rcases List.mem_append.mp hd with hd | hd
        · rw [List.eq_of_mem_replicate hd]; norm_num
        · exact hd10 d hd) (by simp) 0 0 (by norm_num) (by norm_num) (by norm_num) (by norm_num)
      ⟨b.pre ++ ['0', '.'] ++ (List.replicate lz 0 ++ digs L (y * 10 ^ lz)).map dchar,
        (b.suf.drop ['0', '.'].length).drop ((List.replicate lz 0 ++ digs L (y * 10 ^ lz)).map dchar).length⟩
      (by rw [hb]; simp; rfl)
      (by
        simp only [List.drop_drop]
        apply hs.drop
        simp [hl, hdl]; omega)
      (by intro h; exact absurd rfl h)
    refine ⟨s, s1, fun u r hr => ?_⟩
    rw [s2 u r hr]
    congr 1
    rw [mul_assoc]
    congr 1
    have hv : value ([0] ++ (List.replicate lz 0 ++ digs L (y * 10 ^ lz))) = value (digs L (y * 10 ^ lz)) := by
      have hz0 : ∀ k l, value (List.replicate k 0 ++ l) = value l := by
        intro k l
        induction k with
        | zero => rfl
        | succ k ih => rw [List.replicate_succ, List.cons_append, value_cons, ih]; simp
      rw [List.singleton_append, value_cons, hz0]; simp
    rw [hv]
    simp only [List.length_append, List.length_replicate, hdl]
    norm_num
    rw [add_comm]
  · simp only [he, if_false]
    have hm := mantLoop_zeros lz 2 (L + 3) L y b hz (by omega) (by omega) hy0 hz1 hz2
    simp only [Nat.cast_ofNat] at hm
    rw [hm]
    have hlen : (((digs L (y * 10 ^ lz)).take (2 + 1 - lz)).map dchar ++ '.' :: ((digs L (y * 10 ^ lz)).drop (2 + 1 - lz)).map dchar).length = L + 1 := by
      simp [hdl]; omega
    rw [puts_eq _ b (by rw [hlen, hl]; omega)]
    simp only [Option.bind_some]
    obtain ⟨s, s1, s2⟩ := print_tail fw fmt sg ((digs L (y * 10 ^ lz)).take (2 + 1 - lz)) ((digs L (y * 10 ^ lz)).drop (2 + 1 - lz))
      (fun d hd => hd10 d (List.mem_of_mem_take hd)) (fun d hd => hd10 d (List.mem_of_mem_drop hd))
      (by
        intro h
        have := congrArg List.length h
        simp [hdl] at this
        omega) expo j hj h1 h2 he
      ⟨b.pre ++ (((digs L (y * 10 ^ lz)).take (2 + 1 - lz)).map dchar ++ '.' :: ((digs L (y * 10 ^ lz)).drop (2 + 1 - lz)).map dchar),
        b.suf.drop (((digs L (y * 10 ^ lz)).take (2 + 1 - lz)).map dchar ++ '.' :: ((digs L (y * 10 ^ lz)).drop (2 + 1 - lz)).map dchar).length⟩
      (by rw [hb]; rfl)
      (by rw [hlen]; apply hs.drop; rw [hl]; omega)
      (by intro _; rw [hlen, List.length_drop, hl]; omega)
    refine ⟨s, s1, fun u r hr => ?_⟩
    rw [s2 u r hr]
    congr 1
    rw [mul_assoc]
    congr 1
    rw [List.take_append_drop, List.length_drop, hdl, zpow_add₀ (by norm_num)]
    have hp : (10 : ℚ) ^ (L + lz) = 10 ^ (L - (2 + 1 - lz)) * 1000 := by
      rw [show (1000 : ℚ) = 10 ^ 3 by norm_num, ← pow_add]; congr 1; omega
    rw [hp]
    norm_num
    field_simp

/-- the digits asked for, as `ftos` clamps them -/
def asked (len : ℕ) : ℕ := max 3 len

/-- what is printed for a scaled value: read back it is within half a unit of the last of `L` digits -/
theorem body_print (fw len : ℕ) (fmt : Fmt) (h3 : 3 ≤ len) (h33 : len ≤ 33) (sg : Option Bool) (x : ℚ) (hx1 : 1 / 1000 ≤ x) (hx2 : x < 1)
    (e j : ℤ) (hj : e = 3 * j) (h1 : -100 < e) (h2 : e < 309) (b : Buf) (hb : b.pre = [sgChar sg]) (hs : Tail b.suf) (hl : b.suf.length = 39) :
    ∃ s v lzx L, (body fw len fmt x e b).bind (finish fw) = some s ∧
      Reads s ((if sg = some true then -1 else 1) * v) ∧
      |v - x * 10 ^ (e + 3)| ≤ (1 / 2) / 10 ^ (L + lzx) * 10 ^ (e + 3) ∧ x * 10 ^ lzx < 1 ∧ 1 ≤ x * 10 ^ (lzx + 1) ∧
      3 ≤ L ∧ len ≤ L + 1 ∧ (¬ ((fmt.exp = true ∧ e < -9) ∨ 10 < e ∨ e < -16) → L = len) := by
  obtain ⟨lzx, hzx, hzx1, hzx2⟩ := exists_lz x hx1 hx2
  obtain ⟨L, hLdef, hL3, hL33, hLlen, hLe⟩ : ∃ L, (if (if (fmt.exp = true ∧ e < -9) ∨ 10 < e ∨ e < -16 then len - 1 else len) < 3
      then (if (fmt.exp = true ∧ e < -9) ∨ 10 < e ∨ e < -16 then len - 1 else len) + 1
      else (if (fmt.exp = true ∧ e < -9) ∨ 10 < e ∨ e < -16 then len - 1 else len)) = L ∧ 3 ≤ L ∧ L ≤ 33 ∧ len ≤ L + 1 ∧
      (¬ ((fmt.exp = true ∧ e < -9) ∨ 10 < e ∨ e < -16) → L = len) := by
    refine ⟨_, rfl, ?_⟩
    by_cases hc : (fmt.exp = true ∧ e < -9) ∨ 10 < e ∨ e < -16
    · simp only [hc, if_true, not_true_eq_false, false_implies, and_true]
      split <;> omega
    · simp only [hc, if_false, not_false_eq_true, true_implies]
      rw [if_neg (by omega)]
      omega
  have hr := rnd_eq L lzx x hzx hzx1 hzx2
  have hrpos : (0 : ℚ) < (1 / 2) / 10 ^ (L + lzx) := by positivity
  have hr1 : (1 / 2 : ℚ) / 10 ^ (L + lzx) < 1 := by
    rw [div_lt_one (by positivity)]
    have : (1 : ℚ) ≤ 10 ^ (L + lzx) := one_le_pow₀ (by norm_num)
    linarith
  have hpe : (0 : ℚ) < (10 : ℚ) ^ (e + 3) := zpow_pos (by norm_num) _
  unfold body
  simp only [hLdef, hr]
  by_cases hy : 1 ≤ x + (1 / 2) / 10 ^ (L + lzx)
  · simp only [hy, if_true]
    obtain ⟨lz, hz, hz1, hz2⟩ := exists_lz ((x + (1 / 2) / 10 ^ (L + lzx)) * (1 / 1000)) (by linarith) (by linarith)
    obtain ⟨s, s1, s2⟩ := mantissa_print fw L fmt hL3 hL33 sg _ (by linarith) (by linarith) lz hz hz1 hz2 (e + 3) (j + 1) (by rw [hj]; ring)
      (by omega) (by omega) b hb hs hl
    obtain ⟨c1, c2⟩ := round_up_close L (by omega) x _ lz hx2 _ hrpos hy (by linarith) hz hz1 hz2
    refine ⟨s, _, lzx, L, s1, s2, ?_, hzx1, hzx2, hL3, hLlen, hLe⟩
    have e6 : (10 : ℚ) ^ (e + 3 + 3) = 1000 * 10 ^ (e + 3) := by rw [zpow_add₀ (by norm_num) (e + 3) 3]; norm_num [mul_comm]
    rw [e6, ← mul_assoc, ← sub_mul, abs_mul, abs_of_pos hpe]
    apply mul_le_mul_of_nonneg_right _ hpe.le
    rw [abs_le]
    exact ⟨by linarith, by linarith⟩
  · simp only [hy, if_false]
    push Not at hy
    obtain ⟨lz, hz, hz1, hz2⟩ := exists_lz (x + (1 / 2) / 10 ^ (L + lzx)) (by linarith) hy
    obtain ⟨s, s1, s2⟩ := mantissa_print fw L fmt hL3 hL33 sg _ (by linarith) hy lz hz hz1 hz2 e j hj (by omega) (by omega) b hb hs hl
    obtain ⟨c1, c2⟩ := round_close L (by omega) x _ lzx lz hzx1 hzx2 (by linarith) rfl hz1 hz2
    refine ⟨s, _, lzx, L, s1, s2, ?_, hzx1, hzx2, hL3, hLlen, hLe⟩
    rw [← sub_mul, abs_mul, abs_of_pos hpe]
    apply mul_le_mul_of_nonneg_right _ hpe.le
    rw [abs_le]
    exact ⟨by linarith, by linarith⟩

/-- the same with more text behind -/
theorem ftos_reads (num : ℚ) (fw len : ℕ) (fmt : Fmt) (hlen : len ≤ 33) (h1 : 1 / 10 ^ 99 ≤ |num|) (h2 : |num| < bigbig) :
    ∃ (s : List Char) (v : ℚ) (m : ℤ) (D : ℕ), ftos num fw len fmt = some s ∧ Reads s v ∧
      (10 : ℚ) ^ (m - 1) ≤ |num| ∧ |num| < (10 : ℚ) ^ m ∧ |v - num| ≤ 1 / 2 * (10 : ℚ) ^ (m - D) ∧
      3 ≤ D ∧ len ≤ D + 1 ∧
      ((10 : ℚ) ^ (-15 : ℤ) ≤ |num| → |num| < (10 : ℚ) ^ (12 : ℤ) → (fmt.exp = true → (10 : ℚ) ^ (-9 : ℤ) ≤ |num|) → D = asked len) := by
  have hpos : 0 < |num| := lt_of_lt_of_le (by positivity) h1
  have hne : num ≠ 0 := abs_pos.mp hpos
  obtain ⟨hlo, hhi⟩ := abs_lt.mp h2
  -- the clamps
  obtain ⟨len', hlen', h3, h33, hask⟩ : ∃ len', (if 34 < (if len < 3 then 3 else len) then 34 else (if len < 3 then 3 else len)) = len' ∧
      3 ≤ len' ∧ len' ≤ 33 ∧ len' = asked len := by
    refine ⟨_, rfl, ?_⟩
    unfold asked
    split <;> split <;> omega
  obtain ⟨fw', hfw', h39⟩ : ∃ fw', (if 39 < fw then 39 else fw) = fw' ∧ fw' ≤ 39 := ⟨_, rfl, by split <;> omega⟩
  have hnv : num ≠ notValid := by
    have : notValid < -bigbig := by decide +kernel
    intro h; rw [h] at hlo; linarith
  have hni : num ≠ notInput := by
    have : notInput < -bigbig := by decide +kernel
    intro h; rw [h] at hlo; linarith
  obtain ⟨x, e, j, s1, s2, s3, s4, s5, s6, s7⟩ := scale_eq |num| h1 h2
  obtain ⟨b1, b2, b3⟩ := blank_tail fw' len' h39 h33
  obtain ⟨sg, hsg, hsgn⟩ : ∃ sg, (if num < 0 then '-' else if fmt.sign then '+' else ' ') = sgChar sg ∧ (sg = some true ↔ num < 0) := by
    by_cases hn : num < 0
    · exact ⟨some true, by simp [hn, sgChar], by simp [hn]⟩
    · cases hf : fmt.sign
      · exact ⟨none, by simp [hn, sgChar], by simp [hn]⟩
      · exact ⟨some false, by simp [hn, sgChar], by simp [hn]⟩
  have hput : put (sgChar sg) (blank fw' len') = some ⟨[sgChar sg], (blank fw' len').suf.drop 1⟩ := by
    have := puts_eq [sgChar sg] (blank fw' len') (by simp [b3])
    simp only [puts, b1, List.nil_append, List.length_singleton] at this
    rcases hh : put (sgChar sg) (blank fw' len') with _ | b
    · rw [hh] at this; cases this
    · rw [hh] at this; simpa using this
  obtain ⟨s, v, lzx, L, p1, p2, p3, p4, p5, p6, p7, p8⟩ := body_print fw' len' fmt h3 h33 sg x s3 s4 e j s5 s6 s7
    ⟨[sgChar sg], (blank fw' len').suf.drop 1⟩ rfl (b2.drop 1 (by omega)) (by simp [b3])
  have hpe : (0 : ℚ) < (10 : ℚ) ^ (e + 3) := zpow_pos (by norm_num) _
  have hzp : ∀ k : ℕ, (10 : ℚ) ^ (e + 3 - k) = 10 ^ (e + 3) / 10 ^ k := fun k => by rw [zpow_sub₀ (by norm_num), zpow_natCast]
  have hup : |num| < (10 : ℚ) ^ (e + 3 - lzx) := by
    rw [hzp, lt_div_iff₀ (by positivity), s2]; nlinarith
  have hdn : (10 : ℚ) ^ (e + 3 - lzx - 1) ≤ |num| := by
    have : (e + 3 - lzx - 1 : ℤ) = e + 3 - ((lzx + 1 : ℕ) : ℤ) := by push_cast; ring
    rw [this, hzp, div_le_iff₀ (by positivity), s2]; nlinarith
  refine ⟨s, (if sg = some true then -1 else 1) * v, e + 3 - lzx, L, ?_, p2, hdn, hup, ?_, p6, ?_, ?_⟩
  · unfold ftos
    simp only [hlen', hfw']
    rw [if_neg hnv, if_neg hni, if_neg (not_le.mpr hhi), if_neg (not_le.mpr hlo)]
    simp only [not_lt.mpr h1, if_false]
    rw [if_neg hne, hsg, hput]
    simp only [Option.bind_some]
    rcases hh : scaleSmall 400 |num| (-3) with _ | ⟨x1, e1⟩
    · rw [hh] at s1; cases s1
    · rw [hh] at s1
      simp only [Option.bind_some] at s1 ⊢
      rw [s1]
      simpa using p1
  · have habs : |(if sg = some true then (-1 : ℚ) else 1) * v - num| = abs (v - |num|) := by
      by_cases hn : num < 0
      · rw [if_pos (hsgn.mpr hn), abs_of_neg hn, ← abs_neg]; congr 1; ring
      · rw [if_neg (fun h => hn (hsgn.mp h)), abs_of_nonneg (not_lt.mp hn)]; congr 1; ring
    rw [habs, s2]
    refine p3.trans (le_of_eq ?_)
    have : (e + 3 - lzx - L : ℤ) = e + 3 - ((L + lzx : ℕ) : ℤ) := by push_cast; ring
    rw [this, hzp]; ring
  · have : len ≤ len' := by rw [hask]; exact le_max_right _ _
    omega
  · intro q1 q2 q3
    rw [← hask]
    apply p8
    have hgt : ∀ k : ℤ, (10 : ℚ) ^ k ≤ |num| → k < e + 3 := by
      intro k hk
      by_contra hc
      have : (10 : ℚ) ^ (e + 3) ≤ 10 ^ k := zpow_le_zpow_right₀ (by norm_num) (by omega)
      rw [s2] at hk
      nlinarith
    have hlt : ∀ k : ℤ, |num| < (10 : ℚ) ^ k → e < k := by
      intro k hk
      by_contra hc
      have h5 : (10 : ℚ) ^ k ≤ 10 ^ e := zpow_le_zpow_right₀ (by norm_num) (by omega)
      have h6 : (10 : ℚ) ^ (e + 3) = 10 ^ e * 1000 := by rw [zpow_add₀ (by norm_num)]; norm_num
      rw [s2, h6] at hk
      have h7 : (0 : ℚ) < 10 ^ e := zpow_pos (by norm_num) _
      nlinarith
    have := hgt _ q1
    have := hlt _ q2
    rintro (⟨hx, hx'⟩ | hx | hx)
    · have := hgt _ (q3 hx); omega
    · omega
    · omega

/-- **C46**: for every number in the printable range, every field width and format, and every number of digits up to 33, printing stays
within the buffer, and reading the text (in either system of units) gives a number within half a unit in the last of `D` digits
(`10^(m-1) ≤ |num| < 10^m`).  `D` is the asked number of digits (at least three) from 1f to 1T (1n in `e` notation), outside of it
perhaps one less. -/
theorem ftos_roundtrip_partial (num : ℚ) (fw len : ℕ) (fmt : Fmt) (hlen : len ≤ 33) (h1 : 1 / 10 ^ 99 ≤ |num|) (h2 : |num| < bigbig) :
    ∃ (s : List Char) (v : ℚ) (m : ℤ) (D : ℕ), ftos num fw len fmt = some s ∧ (∀ u, ctof u s = .num v []) ∧
      (10 : ℚ) ^ (m - 1) ≤ |num| ∧ |num| < (10 : ℚ) ^ m ∧ |v - num| ≤ 1 / 2 * (10 : ℚ) ^ (m - D) ∧
      3 ≤ D ∧ len ≤ D + 1 ∧
      ((10 : ℚ) ^ (-15 : ℤ) ≤ |num| → |num| < (10 : ℚ) ^ (12 : ℤ) → (fmt.exp = true → (10 : ℚ) ^ (-9 : ℤ) ≤ |num|) → D = asked len) := by
  obtain ⟨s, v, m, D, a, b, c⟩ := ftos_reads num fw len fmt hlen h1 h2
  exact ⟨s, v, m, D, a, b.alone, c⟩

/-- **C46, nearly zero** prints as zero and reads as zero -/
theorem ftos_zero (num : ℚ) (fw len : ℕ) (fmt : Fmt) (hlen : len ≤ 33) (h1 : |num| < 1 / 10 ^ 99) :
    ∃ s, ftos num fw len fmt = some s ∧ Reads s 0 := by
  have hbig : (1 : ℚ) / 10 ^ 99 < bigbig := by decide +kernel
  obtain ⟨hlo, hhi⟩ := abs_lt.mp (h1.trans hbig)
  obtain ⟨len', hlen', h3, h33⟩ : ∃ len', (if 34 < (if len < 3 then 3 else len) then 34 else (if len < 3 then 3 else len)) = len' ∧
      3 ≤ len' ∧ len' ≤ 33 := by
    refine ⟨_, rfl, ?_⟩
    split <;> split <;> omega
  obtain ⟨fw', hfw', h39⟩ : ∃ fw', (if 39 < fw then 39 else fw) = fw' ∧ fw' ≤ 39 := ⟨_, rfl, by split <;> omega⟩
  have hnv : num ≠ notValid := by
    have : notValid < -bigbig := by decide +kernel
    intro h; rw [h] at hlo; linarith
  have hni : num ≠ notInput := by
    have : notInput < -bigbig := by decide +kernel
    intro h; rw [h] at hlo; linarith
  obtain ⟨b1, b2, b3⟩ := blank_tail fw' len' h39 h33
  obtain ⟨s, s1, s2⟩ := print_tail fw' fmt none [0] (List.replicate (len' - 1) 0) (by simp)
    (by intro d hd; rw [List.eq_of_mem_replicate hd]; norm_num) (by simp) 0 0 (by norm_num) (by norm_num) (by norm_num) (by norm_num)
    ⟨[' ', '0', '.'] ++ List.replicate (len' - 1) '0', (blank fw' len').suf.drop ([' ', '0', '.'] ++ List.replicate (len' - 1) '0').length⟩
    (by simp [sgChar, List.map_replicate]; exact ⟨rfl, Or.inr rfl⟩) (by apply b2.drop; simp [b3]; omega) (by intro h; exact absurd rfl h)
  refine ⟨s, ?_, fun u r hr => ?_⟩
  · unfold ftos
    simp only [hlen', hfw']
    rw [if_neg hnv, if_neg hni, if_neg (not_le.mpr hhi), if_neg (not_le.mpr hlo)]
    simp only [h1, if_true]
    rw [puts_eq _ _ (by simp [b3]; omega), b1]
    simp only [Option.bind_some, List.nil_append]
    exact s1
  · rw [s2 u r hr]
    have hz : value ([0] ++ List.replicate (len' - 1) 0) = 0 := by
      rw [List.singleton_append, ← List.replicate_succ]
      generalize len' - 1 + 1 = k
      induction k with
      | zero => rfl
      | succ k ih => rw [List.replicate_succ, value_cons, ih]; simp
    rw [hz]; simp

/-! ### examples and defects -/

example : ftos (-12345678) 0 5 ⟨false, false, false⟩ = some "-12.346Meg".toList := by decide +kernel
example : ftos (1 / 3) 11 4 ⟨true, false, false⟩ = some " 0.3333    ".toList := by decide +kernel
example : ftos 999999999999 0 5 ⟨false, false, false⟩ = some " 1.E+12".toList := by decide +kernel
example : (1 : ℚ) / 10 ^ 99 ≤ |-12345678| ∧ |(-12345678 : ℚ)| < bigbig := by decide +kernel

/-- **C46 is false for 34 digits**, the most `ftos` lets pass: no room is left for the terminating NUL, … -/
theorem ftos_unterminated : ftos (1 / 3) 0 34 ⟨false, false, false⟩ = none := by decide +kernel

/-- … and in `e` notation the text goes beyond the buffer (here with only a field width that is short, so trailing blanks are no issue) -/
theorem ftos_overrun : (body 10 34 ⟨true, false, false⟩ (1 / 3) 3 ⟨[' '], List.replicate 39 ' '⟩) = none := by decide +kernel

/-- **C46 is false near the limit of a format**: 10 digits are asked, 9 are given -/
theorem ftos_one_digit_less : ftos 1234567890123 0 10 ⟨false, false, false⟩ = some " 1.23456789E+12".toList := by decide +kernel

end Gnucap.Num
