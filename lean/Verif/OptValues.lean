import Verif.OptRound

/-!
# The options command (C75): what the values mean
-/
namespace Gnucap.Opt
open Gnucap.Scan Gnucap.Num

variable {langs : List Lang}

/-! ### flags -/

/-- Specification: the ways to write yes: 1, any beginning of true or yes, and of `#true` with at least its first letter -/
def yesWords : List (List Char) :=
  [['1'], ['t'], ['t', 'r'], ['t', 'r', 'u'], ['t', 'r', 'u', 'e'], ['y'], ['y', 'e'], ['y', 'e', 's'],
   ['#', 't'], ['#', 't', 'r'], ['#', 't', 'r', 'u'], ['#', 't', 'r', 'u', 'e']]

/-- Specification: the ways to write no: 0, any beginning of false or no, and of `#false` with at least its first letter -/
def noWords : List (List Char) :=
  [['0'], ['f'], ['f', 'a'], ['f', 'a', 'l'], ['f', 'a', 'l', 's'], ['f', 'a', 'l', 's', 'e'], ['n'], ['n', 'o'],
   ['#', 'f'], ['#', 'f', 'a'], ['#', 'f', 'a', 'l'], ['#', 'f', 'a', 'l', 's'], ['#', 'f', 'a', 'l', 's', 'e']]

theorem bool_sound : ∀ c ∈ boolWords, sound (c.1 ++ [' ']) = true := by decide +kernel

theorem yes_checked : (yesWords.all fun w => isWord w && chooses false boolWords w 1 && chooses true boolWords w 1) = true := by
  decide +kernel

theorem no_checked : (noWords.all fun w => isWord w && chooses false boolWords w 0 && chooses true boolWords w 0) = true := by
  decide +kernel

theorem ctob_word (ci : Bool) (t rest : List Char) (z : ℤ) (ht : Word t) (hr : Follows rest) (h : chooses ci boolWords t z = true) :
    ctob ci (t ++ rest) = (z != 0, skipbl rest) := by
  have h1 := choose_name ci t rest ht hr.term z boolWords bool_sound h
  unfold ctob
  rw [ht.skipbl, h1]
  simp only [hr.skipcom_skipbl]

theorem flag_assign (o : Opts) (w t rest : List Char) (z : ℤ) (hw : Word w) (ht : Word t) (hr : Follows rest) (v : Var)
    (h : selects o.ci w v .flag = true) (hc : chooses o.ci boolWords t z = true) :
    round langs o (w ++ '=' :: (t ++ rest)) = .yes (o.setFlag v (z != 0)) (skipbl rest) := by
  obtain ⟨post, hp⟩ := select_name langs o w ('=' :: (t ++ rest)) hw (by simp [isTerm, isTermChar]) v .flag h
  apply round_yes
  rw [hp]
  apply orElse_yes
  have h1 : skipbl ('=' :: (t ++ rest)) = '=' :: (t ++ rest) := Spice.skipbl_cons _ (by decide)
  have h2 : skipcom ('=' :: (t ++ rest)) = '=' :: (t ++ rest) := by
    unfold Scan.skipcom
    rw [h1]
    rfl
  have h3 : Spice.skip1b ['='] ('=' :: (t ++ rest)) = (true, t ++ rest) := by
    unfold Spice.skip1b
    rw [h1]
    simp [Spice.match1, ht.skipbl]
  simp only [Kind.behind, h1, h2, take, h3, ctob_word o.ci t rest z ht hr hc]
  rfl

/-- **C75, flags**: the name of a flag, `=` and a word for yes sets it, with a word for no clears it; nothing else changes, and reading
goes on behind the word. -/
theorem flag_value (o : Opts) (e : Entry) (he : e ∈ table) (hk : e.kind = .flag) (w : List Char) (hw : w ∈ writings e.key)
    (t rest : List Char) (b : Bool) (ht : t ∈ if b then yesWords else noWords) (hr : Follows rest) :
    ∃ o', round langs o (w ++ '=' :: (t ++ rest)) = .yes o' (skipbl rest) ∧ o'.flag e.var = b ∧ (∀ v, v ≠ e.var → o'.flag v = o.flag v) ∧
      o'.num = o.num ∧ o'.int = o.int ∧ o'.lang = o.lang := by
  have h1 := List.all_eq_true.mp (List.all_eq_true.mp names_checked e he) w hw
  simp only [Bool.and_eq_true, hk] at h1
  have hs : selects o.ci w e.var .flag = true := by
    cases h : o.ci
    · exact h1.1.2
    · exact h1.2
  have h2 : Word t ∧ ∃ z : ℤ, (z != 0) = b ∧ chooses o.ci boolWords t z = true := by
    cases b
    · have := List.all_eq_true.mp no_checked t (by simpa using ht)
      simp only [Bool.and_eq_true] at this
      refine ⟨word_of this.1.1, 0, rfl, ?_⟩
      cases h : o.ci
      · exact this.1.2
      · exact this.2
    · have := List.all_eq_true.mp yes_checked t (by simpa using ht)
      simp only [Bool.and_eq_true] at this
      refine ⟨word_of this.1.1, 1, rfl, ?_⟩
      cases h : o.ci
      · exact this.1.2
      · exact this.2
  obtain ⟨hT, z, hz, hc⟩ := h2
  refine ⟨_, flag_assign o w t rest z (word_of h1.1.1) hT hr e.var hs hc, ?_, ?_, rfl, rfl, rfl⟩
  · rw [hz]; simp [Opts.setFlag]
  · intro v hv; simp [Opts.setFlag, hv]

/-- `bypass=fal`, with another option behind it -/
example : (⟨['b', 'y', 'p', '{', 'a', 's', 's', '}'], .bypass, .flag⟩ : Entry) ∈ table ∧
    ['b', 'y', 'p', 'a', 's', 's'] ∈ writings ['b', 'y', 'p', '{', 'a', 's', 's', '}'] ∧
    ['f', 'a', 'l'] ∈ (if false then yesWords else noWords) ∧ Follows [' ', ' ', 'l', 'u'] := by
  refine ⟨by simp [table], by decide, by decide, .inr ⟨'l', ['u'], rfl, by decide, by decide, by decide⟩⟩

/-! ### integers -/

/-- Specification: `z` is `x` without what is behind the point -/
def CutOff (x : ℚ) (z : ℤ) : Prop := |(z : ℚ)| ≤ |x| ∧ |x - z| < 1 ∧ 0 ≤ x * z

theorem cutOff_unique {x : ℚ} {a b : ℤ} (ha : CutOff x a) (hb : CutOff x b) : a = b := by
  obtain ⟨a1, a2, a3⟩ := ha
  obtain ⟨b1, b2, b3⟩ := hb
  rw [abs_lt] at a2 b2
  rcases lt_trichotomy x 0 with h | h | h
  · rw [abs_of_neg h] at a1 b1
    have h1 := (abs_le.mp a1).1
    have h2 := (abs_le.mp b1).1
    have : ((a - b : ℤ) : ℚ) < 1 := by push_cast; linarith
    have : ((b - a : ℤ) : ℚ) < 1 := by push_cast; linarith
    norm_cast at *
    omega
  · subst h
    simp only [abs_zero, abs_nonpos_iff, Int.cast_eq_zero] at a1 b1
    rw [a1, b1]
  · rw [abs_of_pos h] at a1 b1
    have h1 := (abs_le.mp a1).2
    have h2 := (abs_le.mp b1).2
    have : ((a - b : ℤ) : ℚ) < 1 := by push_cast; linarith
    have : ((b - a : ℤ) : ℚ) < 1 := by push_cast; linarith
    norm_cast at *
    omega

/-- **C75, integers**: a number given for an integer option is cut off towards zero; if that is no `int` the outcome is undefined. -/
theorem toInt_cuts (x : ℚ) : ∃ z, CutOff x z ∧ toInt x = if -(2 : ℤ) ^ 31 ≤ z ∧ z < 2 ^ 31 then some z else none := by
  unfold toInt
  by_cases h : x < 0
  · refine ⟨⌈x⌉, ?_, ?_⟩
    · have h1 := Int.le_ceil x
      have h2 := Int.ceil_lt_add_one x
      have h3 : ((⌈x⌉ : ℤ) : ℚ) ≤ 0 := by exact_mod_cast Int.ceil_le.mpr (by simpa using h.le)
      refine ⟨?_, ?_, mul_nonneg_of_nonpos_of_nonpos h.le h3⟩
      · rw [abs_of_nonpos h3, abs_of_neg h]; linarith
      · rw [abs_lt]; constructor <;> linarith
    · simp only [if_pos h, intMax]
      congr 1
      apply propext
      norm_num
      omega
  · have h := not_lt.mp h
    refine ⟨⌊x⌋, ?_, ?_⟩
    · have h1 := Int.floor_le x
      have h2 := Int.lt_floor_add_one x
      have h3 : 0 ≤ ((⌊x⌋ : ℤ) : ℚ) := by exact_mod_cast Int.floor_nonneg.mpr h
      refine ⟨?_, ?_, mul_nonneg h h3⟩
      · rw [abs_of_nonneg h3, abs_of_nonneg h]; exact h1
      · rw [abs_lt]; constructor <;> linarith
    · simp only [if_neg (not_lt.mpr h), intMax]
      congr 1
      apply propext
      norm_num
      omega

example : CutOff (-7/2) (-3) := by
  refine ⟨?_, ?_, ?_⟩
  · norm_num
  · rw [abs_lt]; norm_num
  · norm_num

/-- **C75, integers**: `name=text` for a text with the value `x` sets an integer option to `x` without what is behind the point, and
nothing else. -/
theorem int_value (o : Opts) (e : Entry) (he : e ∈ table) (hk : e.kind = .int) (w : List Char) (hw : w ∈ writings e.key)
    (t rest : List Char) (x : ℚ) (ht : Shows t x) (hr : Follows rest) (z : ℤ) (hz : CutOff x z) (hb : -(2 : ℤ) ^ 31 ≤ z ∧ z < 2 ^ 31) :
    ∃ o', round langs o (w ++ '=' :: (t ++ rest)) = .yes o' (skipbl rest) ∧ o'.int e.var = z ∧ (∀ v, v ≠ e.var → o'.int v = o.int v) ∧
      o'.num = o.num ∧ o'.flag = o.flag ∧ o'.lang = o.lang := by
  have h1 := List.all_eq_true.mp (List.all_eq_true.mp names_checked e he) w hw
  simp only [Bool.and_eq_true, hk] at h1
  have hs : selects o.ci w e.var .int = true := by
    cases h : o.ci
    · exact h1.1.2
    · exact h1.2
  obtain ⟨z', hz', hi⟩ := toInt_cuts x
  obtain rfl := cutOff_unique hz' hz
  rw [if_pos hb] at hi
  refine ⟨o.setInt e.var z', ?_, ?_, ?_, rfl, rfl, rfl⟩
  · apply select_value o w _ (word_of h1.1.1) e.var .int rfl hs
    simp only [take, ht.number o.units rest hr, hi]
  · simp [Opts.setInt]
  · intro v hv; simp [Opts.setInt, hv]

/-- `itl1=-7`, cut off to itself -/
example : (∃ e ∈ table, e.kind = .int) ∧ Shows (decText (-7)) ((-7 : ℤ) : ℚ) ∧ CutOff ((-7 : ℤ) : ℚ) (-7) := by
  refine ⟨⟨⟨['i','t','l','1'], .itl1, .int⟩, by simp [table], rfl⟩, decText_shows _, ?_, ?_, ?_⟩ <;> norm_num

/-! ### the language -/

/-- **C75, language**: `language=name` makes that language, its case mode and its units those in force, and changes nothing else. -/
theorem lang_value (o : Opts) (e : Entry) (he : e ∈ table) (hk : e.kind = .lang) (w : List Char) (hw : w ∈ writings e.key) (rest : List Char)
    (hr : Follows rest) (l : Lang) (hl : langs.find? (fun x => x.name == l.name) = some l) (hp : Spice.Plain l.name) :
    ∃ o', round langs o (w ++ '=' :: (l.name ++ rest)) = .yes o' (skipbl rest) ∧ o'.lang = some l ∧ o'.ci = l.ci ∧ o'.int .units = l.units ∧
      (∀ v, v ≠ .insensitive → o'.flag v = o.flag v) ∧ (∀ v, v ≠ .units → o'.int v = o.int v) ∧ o'.num = o.num := by
  have h1 := List.all_eq_true.mp (List.all_eq_true.mp names_checked e he) w hw
  simp only [Bool.and_eq_true, hk] at h1
  have hv : e.var = .language := by
    have : (table.all fun e => decide (e.kind = .lang → e.var = .language)) = true := by decide +kernel
    exact of_decide_eq_true (List.all_eq_true.mp this e he) hk
  have hs : selects o.ci w .language .lang = true := by
    rw [← hv]
    cases h : o.ci
    · exact h1.1.2
    · exact h1.2
  refine ⟨_, lang_read o w rest l (word_of h1.1.1) hr hs hl hp, rfl, ?_, ?_, ?_, ?_, rfl⟩
  · simp [Opts.setLang, Opts.ci, Opts.setInt, Opts.setFlag]
  · simp [Opts.setLang, Opts.setInt, Opts.setFlag]
  · intro v hv; simp [Opts.setLang, Opts.setInt, Opts.setFlag, hv]
  · intro v hv; simp [Opts.setLang, Opts.setInt, Opts.setFlag, hv]

example : (⟨['l', 'a', 'n', 'g', '{', 'u', 'a', 'g', 'e', '}'], .language, .lang⟩ : Entry) ∈ table ∧
    [someLang].find? (fun x => x.name == someLang.name) = some someLang ∧ Spice.Plain someLang.name :=
  ⟨by simp [table], rfl, ⟨by decide, by decide, by decide, by decide⟩⟩

end Gnucap.Opt
