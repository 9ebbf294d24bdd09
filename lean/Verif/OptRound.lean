import Verif.OptProps

/-!
# The options command (C75): printed options read back; comments
-/
namespace Gnucap.Opt
open Gnucap.Scan Gnucap.Num

/-! ### rounds in a row -/

/-- reading from one text to another -/
inductive Steps (langs : List Lang) : Opts → List Char → Opts → List Char → Prop
  | refl (o : Opts) (s : List Char) : Steps langs o s o s
  | step {o o1 o2 : Opts} {s r t : List Char} (hs : s ≠ []) (hb : skipbl s = s) (hr : round langs o s = .yes o1 r)
      (h : Steps langs o1 (skipbl r) o2 t) : Steps langs o s o2 t

theorem Steps.trans {langs : List Lang} {o1 o2 o3 : Opts} {s1 s2 s3 : List Char} (h1 : Steps langs o1 s1 o2 s2) (h2 : Steps langs o2 s2 o3 s3) :
    Steps langs o1 s1 o3 s3 := by
  induction h1 with
  | refl => exact h2
  | step hs hb hr _ ih => exact .step hs hb hr (ih h2)

theorem Steps.one {langs : List Lang} {o o1 : Opts} {s r : List Char} (hs : s ≠ []) (hb : skipbl s = s) (hr : round langs o s = .yes o1 r) :
    Steps langs o s o1 (skipbl r) := .step hs hb hr (.refl _ _)

theorem loop_steps {langs : List Lang} {o o' : Opts} {s t : List Char} (h : Steps langs o s o' t) (ht : t = []) : ∀ (n : ℕ) (ch : Bool), s ≠ [] →
    s.length < n → loop langs n o ch s = .done (finish o' true) true := by
  induction h with
  | refl o s => intro n ch hs; exact absurd ht hs
  | @step o o1 o2 s r t hs hb hr h ih =>
    intro n ch _ hn
    cases n with
    | zero => omega
    | succ n =>
      have hl := (round_len langs o o1 s r hr).2.1 (by rw [hb]; exact hs)
      have hl2 := skipbl_len r
      simp only [loop, hr, hl, decide_true, Bool.or_true, and_true]
      by_cases hr0 : skipbl r = []
      · simp only [hr0, ne_eq, not_true_eq_false, if_false]
        rw [hr0] at h
        cases h with
        | refl => rfl
        | step h1 => exact absurd rfl h1
      · simp only [ne_eq, hr0, not_false_eq_true, if_true]
        exact ih ht n true hr0 (by omega)

/-! ### what comes behind an item -/

/-- nothing, or two blanks and another item -/
def Follows (rest : List Char) : Prop :=
  rest = [] ∨ ∃ c t, rest = ' ' :: ' ' :: c :: t ∧ isGraph c = true ∧ c ≠ ',' ∧ c ≠ '='

theorem Follows.term {rest : List Char} (h : Follows rest) : isTerm rest = true := by
  rcases h with rfl | ⟨c, t, rfl, -⟩
  · rfl
  · have : isSpace ' ' = true := by decide
    simp [isTerm, isTermChar, this]

theorem Follows.stops {rest : List Char} (h : Follows rest) : Stops rest := by
  rcases h with rfl | ⟨c, t, rfl, -⟩
  · intro c hc; cases hc
  · intro c hc; simp at hc; subst hc; decide

theorem skipbl_two (s : List Char) : skipbl (' ' :: ' ' :: s) = skipbl s := by
  have h : isGraph ' ' = false := by decide
  simp [skipbl, h]

theorem Follows.skipcom {rest : List Char} (h : Follows rest) : skipcom rest = skipbl rest := by
  rcases h with rfl | ⟨c, t, rfl, hc, h1, -⟩
  · rfl
  · unfold Scan.skipcom
    rw [skipbl_two, Spice.skipbl_cons t hc]
    split
    · rename_i heq; simp at heq; exact absurd heq.1 h1
    · rfl

theorem Follows.skipcom_skipbl {rest : List Char} (h : Follows rest) : Scan.skipcom (skipbl rest) = skipbl rest := by
  have := h.skipcom
  unfold Scan.skipcom at this ⊢
  rw [Spice.skipbl_idem]
  exact this

theorem Follows.noEq {rest : List Char} (h : Follows rest) : Spice.skip1b ['='] (skipbl rest) = (false, skipbl rest) := by
  rcases h with rfl | ⟨c, t, rfl, hc, -, h1⟩
  · rfl
  · unfold Spice.skip1b
    rw [skipbl_two, Spice.skipbl_cons t hc, Spice.skipbl_cons t hc]
    simp [Spice.match1, h1]

theorem round_yes (langs : List Lang) (o o' : Opts) (s r : List Char) (h : tryAll langs o table s = .yes o' r) : round langs o s = .yes o' r := by
  unfold round; rw [h]

theorem orElse_yes {o : Opts} {r : List Char} {f : List Char → Out} {x : Out} (h : x = .yes o r) : x.orElse f = .yes o r := by subst h; rfl

/-! ### the items one by one -/

variable {langs : List Lang}

theorem flag_set (o : Opts) (w rest : List Char) (hw : Word w) (hr : Follows rest) (v : Var) (h : selects o.ci w v .flag = true) :
    round langs o (w ++ rest) = .yes (o.setFlag v true) (skipbl rest) := by
  obtain ⟨post, hp⟩ := select_name langs o w rest hw hr.term v .flag h
  apply round_yes
  rw [hp]
  apply orElse_yes
  simp only [Kind.behind, hr.skipcom_skipbl, take, hr.noEq]
  rfl

theorem flag_clear (o : Opts) (w rest : List Char) (hw : Word w) (hr : Follows rest) (v : Var) (h : selectsNo o.ci w v = true) :
    round langs o (w ++ rest) = .yes (o.setFlag v false) (skipbl rest) := by
  apply round_yes
  rw [select_no langs o w rest hw hr.term v h, hr.skipcom]

/-- the text behind `name=` -/
theorem behind_eq (k : Kind) (hk : k.ending = [.delim, .opt ['=']]) (s : List Char) : k.behind ('=' :: s) = skipcom s := by
  have h1 : skipbl ('=' :: s) = '=' :: s := Spice.skipbl_cons s (by decide)
  have h2 : optDrop false ['='] ('=' :: s) = s := by simp [optDrop, eqc]
  cases k <;> simp_all [Kind.behind, Kind.ending]

theorem select_value (o : Opts) (w s : List Char) (hw : Word w) (v : Var) (k : Kind) (hk : k.ending = [.delim, .opt ['=']])
    (h : selects o.ci w v k = true) (o' : Opts) (r : List Char) (ht : take langs o v k (skipcom s) = .yes o' r) :
    round langs o (w ++ '=' :: s) = .yes o' r := by
  obtain ⟨post, hp⟩ := select_name langs o w ('=' :: s) hw (by simp [isTerm, isTermChar]) v k h
  apply round_yes
  rw [hp, behind_eq k hk]
  exact orElse_yes ht

/-- Specification of a text for a number: blanks, then a numeral with this value, which has no letters that depend on the units -/
def Shows (t : List Char) (x : ℚ) : Prop :=
  ∃ (b : List Char) (N : Numeral), (∀ c ∈ b, isGraph c = false) ∧ N.Wf ∧ t = b ++ N.text ∧ ∀ u, N.value u = x

theorem Shows.number {t : List Char} {x : ℚ} (h : Shows t x) (u : Units) (rest : List Char) (hr : Follows rest) :
    number u (skipcom (t ++ rest)) = some (x, skipbl rest) := by
  obtain ⟨b, N, hb, hN, rfl, hx⟩ := h
  obtain ⟨c, r, hcr, hc⟩ := N.head hN rest
  have hg : isGraph c = true := float_graph c hc
  have h1 : skipbl (b ++ N.text ++ rest) = N.text ++ rest := by
    rw [List.append_assoc]
    apply skipbl_blanks b _ hb
    intro x hx
    rw [hcr] at hx
    simp at hx
    subst hx
    exact hg
  have h2 : skipcom (b ++ N.text ++ rest) = N.text ++ rest := by
    unfold Scan.skipcom
    rw [h1, hcr]
    split
    · rename_i heq
      simp at heq
      rw [heq.1] at hc
      exact absurd hc (by decide)
    · rfl
  have h3 := ctof_numeral u N hN [] rest (by simp) hr.stops
  rw [List.nil_append] at h3
  unfold Opt.number
  rw [h2, h3, hx, hr.skipcom]

theorem num_read (o : Opts) (w rest t : List Char) (x : ℚ) (hw : Word w) (hr : Follows rest) (v : Var) (p : Bool)
    (h : selects o.ci w v (.num p) = true) (ht : Shows t x) :
    round langs o (w ++ '=' :: (t ++ rest)) = .yes (o.setNum v (if p then |x| else x)) (skipbl rest) := by
  apply select_value o w _ hw v (.num p) rfl h
  simp only [take, ht.number o.units rest hr]

theorem char_isDigit {c : Char} (h : c.isDigit = true) : isDigit c = true := by
  simp only [Char.isDigit, Bool.and_eq_true, decide_eq_true_eq] at h
  simp only [isDigit, Bool.and_eq_true, decide_eq_true_eq]
  have h1 : (48 : UInt32).toNat ≤ c.val.toNat := UInt32.le_iff_toNat_le.mp h.1
  have h2 : c.val.toNat ≤ (57 : UInt32).toNat := UInt32.le_iff_toNat_le.mp h.2
  exact ⟨h1, h2⟩

theorem dchar_digitVal {c : Char} (h : isDigit c = true) : dchar (digitVal c) = c := by
  simp only [isDigit, Bool.and_eq_true, decide_eq_true_eq] at h
  have : 48 + digitVal c = c.toNat := by unfold digitVal; omega
  unfold dchar
  rw [this, Char.ofNat_toNat]

theorem digitVal_lt {c : Char} (h : isDigit c = true) : digitVal c < 10 := by
  simp only [isDigit, Bool.and_eq_true, decide_eq_true_eq] at h
  unfold digitVal; omega

theorem value_ofDigitChars : ∀ (cs : List Char) (a : ℕ), (cs.map digitVal).foldl (fun v d => 10 * v + d) a = Nat.ofDigitChars 10 cs a
  | [], a => rfl
  | c :: cs, a => by
    simp only [List.map_cons, List.foldl_cons]
    rw [value_ofDigitChars cs]
    rfl

theorem toDigits_digit (b n : ℕ) (hb : 0 < b) (hb' : b ≤ 10) : ∀ c ∈ Nat.toDigits b n, isDigit c = true :=
  fun _ hc => char_isDigit (Nat.isDigit_of_mem_toDigits hb hb' hc)

/-- the numeral of an integer -/
def intNumeral (z : ℤ) : Numeral := ⟨if z < 0 then some true else none, (Nat.toDigits 10 z.natAbs).map digitVal, false, [], .word []⟩

theorem intNumeral_wf (z : ℤ) : (intNumeral z).Wf where
  ip d hd := by
    obtain ⟨c, hc, rfl⟩ := List.mem_map.mp hd
    exact digitVal_lt (toDigits_digit 10 _ (by norm_num) (by norm_num) c hc)
  fp d hd := by cases hd
  frac _ := rfl
  some_digit := Or.inl (by simp [intNumeral, Nat.toDigits_ne_nil])
  suf := by constructor <;> simp

theorem intNumeral_text (z : ℤ) : (intNumeral z).text = decText z := by
  have : ((Nat.toDigits 10 z.natAbs).map digitVal).map dchar = Nat.toDigits 10 z.natAbs := by
    rw [List.map_map]
    conv_rhs => rw [← List.map_id (Nat.toDigits 10 z.natAbs)]
    apply List.map_congr_left
    intro c hc
    exact dchar_digitVal (toDigits_digit 10 _ (by norm_num) (by norm_num) c hc)
  unfold Numeral.text decText intNumeral
  rw [this]
  split <;> simp [sgnText, Suffix.text]

theorem intNumeral_value (z : ℤ) (u : Units) : (intNumeral z).value u = z := by
  have h1 : Num.value ((Nat.toDigits 10 z.natAbs).map digitVal) = z.natAbs := by
    unfold Num.value
    rw [value_ofDigitChars]
    exact Nat.ofDigitChars_ten_toDigits
  have h2 : factor u [] = 1 := by cases u <;> rfl
  unfold Numeral.value intNumeral
  simp only [List.append_nil, h1, List.length_nil, pow_zero, div_one, Suffix.factor, h2, mul_one]
  by_cases hz : z < 0
  · simp only [hz, if_true]
    have : ((z.natAbs : ℤ) : ℚ) = ((-z : ℤ) : ℚ) := by congr 1; omega
    have h3 : ((z.natAbs : ℕ) : ℚ) = -(z : ℚ) := by
      rw [← Int.cast_natCast, this]; push_cast; ring
    rw [h3]; ring
  · simp only [hz, if_false]
    have : ((z.natAbs : ℤ) : ℚ) = (z : ℚ) := by congr 1; omega
    rw [← Int.cast_natCast, this]; simp

theorem decText_shows (z : ℤ) : Shows (decText z) z :=
  ⟨[], intNumeral z, by simp, intNumeral_wf z, by simp [intNumeral_text], fun u => intNumeral_value z u⟩

theorem toInt_int (z : ℤ) (h : -(intMax : ℤ) - 1 ≤ z ∧ z ≤ intMax) : toInt (z : ℚ) = some z := by
  unfold toInt
  simp only [Int.ceil_intCast, Int.floor_intCast, ite_self]
  rw [if_pos h]

theorem int_read (o : Opts) (w rest : List Char) (z : ℤ) (hw : Word w) (hr : Follows rest) (v : Var) (hz : -(intMax : ℤ) - 1 ≤ z ∧ z ≤ intMax)
    (h : selects o.ci w v .int = true) :
    round langs o (w ++ '=' :: (decText z ++ rest)) = .yes (o.setInt v z) (skipbl rest) := by
  apply select_value o w _ hw v .int rfl h
  simp only [take, (decText_shows z).number o.units rest hr, toInt_int z hz]

theorem range_read (o : Opts) (w rest : List Char) (z : ℤ) (hw : Word w) (hr : Follows rest) (v : Var) (hz : 1 ≤ z ∧ z ≤ 3)
    (h : selects o.ci w v .range = true) :
    round langs o (w ++ '=' :: (decText z ++ rest)) = .yes (o.setInt v z) (skipbl rest) := by
  apply select_value o w _ hw v .range rfl h
  have : toRange 1 z 3 = z := by unfold toRange; omega
  simp only [take, (decText_shows z).number o.units rest hr, toInt_int z (by simp only [intMax]; omega), this]

theorem le_ofDigitChars (b : ℕ) (hb : 1 ≤ b) : ∀ (cs : List Char) (a : ℕ), a ≤ Nat.ofDigitChars b cs a
  | [], a => le_rfl
  | c :: cs, a => by
    have h1 := le_ofDigitChars b hb cs (b * a + (c.toNat - '0'.toNat))
    have h2 : a ≤ b * a := Nat.le_mul_of_pos_left a hb
    have h3 : Nat.ofDigitChars b (c :: cs) a = Nat.ofDigitChars b cs (b * a + (c.toNat - '0'.toNat)) := rfl
    omega

theorem ctouLoop_digits (rest : List Char) (hr : ∀ c, rest.head? = some c → isDigit c = false) : ∀ (cs : List Char) (a : ℕ),
    (∀ c ∈ cs, isDigit c = true) → Nat.ofDigitChars 10 cs a < 2 ^ 32 → ctouLoop a (cs ++ rest) = (Nat.ofDigitChars 10 cs a, rest)
  | [], a, _, _ => by
    cases rest with
    | nil => rfl
    | cons c t => simp [ctouLoop, hr c rfl, Nat.ofDigitChars]
  | c :: cs, a, hd, hlt => by
    have h3 : Nat.ofDigitChars 10 (c :: cs) a = Nat.ofDigitChars 10 cs (10 * a + digitVal c) := rfl
    rw [h3] at hlt ⊢
    have h1 := le_ofDigitChars 10 (by norm_num) cs (10 * a + digitVal c)
    have h2 : (10 * a + digitVal c) % 2 ^ 32 = 10 * a + digitVal c := Nat.mod_eq_of_lt (by omega)
    simp only [List.cons_append, ctouLoop, hd c (by simp), if_true, h2]
    exact ctouLoop_digits rest hr cs _ (fun x hx => hd x (by simp [hx])) hlt

theorem octDigits_digits (rest : List Char) (hr : ∀ c, rest.head? = some c → isDigit c = false) : ∀ (cs : List Char) (a : ℕ),
    (∀ c ∈ cs, isDigit c = true) → Nat.ofDigitChars 8 cs a ≤ intMax → octDigits a (cs ++ rest) = some (Nat.ofDigitChars 8 cs a, rest)
  | [], a, _, _ => by
    cases rest with
    | nil => rfl
    | cons c t => simp [octDigits, hr c rfl, Nat.ofDigitChars]
  | c :: cs, a, hd, hlt => by
    have h3 : Nat.ofDigitChars 8 (c :: cs) a = Nat.ofDigitChars 8 cs (8 * a + digitVal c) := rfl
    rw [h3] at hlt ⊢
    have h1 := le_ofDigitChars 8 (by norm_num) cs (8 * a + digitVal c)
    simp only [List.cons_append, octDigits, hd c (by simp), if_true]
    rw [if_neg (by omega)]
    exact octDigits_digits rest hr cs _ (fun x hx => hd x (by simp [hx])) hlt

theorem digit_graph {c : Char} (h : isDigit c = true) : isGraph c = true ∧ c ≠ ',' := by
  constructor
  · simp only [isDigit, isGraph, Bool.and_eq_true, decide_eq_true_eq] at h ⊢; omega
  · rintro rfl; exact absurd h (by decide)

/-- a text of digits is where reading starts -/
theorem digits_start (cs rest : List Char) (hne : cs ≠ []) (hd : ∀ c ∈ cs, isDigit c = true) :
    skipcom (cs ++ rest) = cs ++ rest ∧ skipbl (cs ++ rest) = cs ++ rest := by
  cases cs with
  | nil => exact absurd rfl hne
  | cons c cs =>
    obtain ⟨h1, h2⟩ := digit_graph (hd c (by simp))
    have h3 : skipbl (c :: cs ++ rest) = c :: cs ++ rest := Spice.skipbl_cons _ h1
    refine ⟨?_, h3⟩
    unfold Scan.skipcom
    rw [h3]
    split
    · rename_i heq; simp at heq; exact absurd heq.1 h2
    · rfl

theorem uns_read (o : Opts) (w rest : List Char) (z : ℤ) (hw : Word w) (hr : Follows rest) (v : Var) (hz : 0 ≤ z ∧ z ≤ 2 ^ 32 - 1)
    (h : selects o.ci w v .uns = true) :
    round langs o (w ++ '=' :: (decText z ++ rest)) = .yes (o.setInt v z) (skipbl rest) := by
  apply select_value o w _ hw v .uns rfl h
  have ht : decText z = Nat.toDigits 10 z.natAbs := by unfold decText; rw [if_neg (by omega)]; rfl
  have hd := toDigits_digit 10 z.natAbs (by norm_num) (by norm_num)
  obtain ⟨h1, h2⟩ := digits_start (Nat.toDigits 10 z.natAbs) rest Nat.toDigits_ne_nil hd
  have h3 := ctouLoop_digits rest (fun c hc => (hr.stops c hc).1) (Nat.toDigits 10 z.natAbs) 0 hd
    (by rw [Nat.ofDigitChars_ten_toDigits]; omega)
  rw [Nat.ofDigitChars_ten_toDigits] at h3
  simp only [take, ctou]
  rw [ht, h1, h2, h3]
  simp only [hr.skipcom]
  congr 2
  omega

theorem oct_read (o : Opts) (w rest : List Char) (z : ℤ) (hw : Word w) (hr : Follows rest) (v : Var) (hz : 0 ≤ z ∧ z ≤ intMax)
    (h : selects o.ci w v .oct = true) :
    round langs o (w ++ '=' :: (octText z ++ rest)) = .yes (o.setInt v z) (skipbl rest) := by
  apply select_value o w _ hw v .oct rfl h
  have ht : octText z = Nat.toDigits 8 z.toNat := by unfold octText; rw [if_neg (by omega)]
  have hd := toDigits_digit 8 z.toNat (by norm_num) (by norm_num)
  obtain ⟨h1, h2⟩ := digits_start (Nat.toDigits 8 z.toNat) rest Nat.toDigits_ne_nil hd
  have hv : Nat.ofDigitChars 8 (Nat.toDigits 8 z.toNat) 0 = z.toNat := Nat.ofDigitChars_toDigits (by norm_num) (by norm_num)
  have h3 := octDigits_digits rest (fun c hc => (hr.stops c hc).1) (Nat.toDigits 8 z.toNat) 0 hd (by rw [hv]; omega)
  rw [hv] at h3
  simp only [take, ctoo]
  rw [ht, h1, h2, h3]
  simp only [Option.map_some, hr.skipcom]
  congr 2
  omega

theorem Word.skipcom {w : List Char} (hw : Word w) (rest : List Char) : skipcom (w ++ rest) = w ++ rest := by
  have h1 := hw.skipbl rest
  obtain ⟨h, h'⟩ := hw
  unfold Scan.skipcom
  rw [h1]
  cases w with
  | nil => exact absurd rfl h
  | cons c w =>
    simp only [List.cons_append]
    split
    · rename_i heq
      simp at heq
      rw [heq.1] at h'
      exact absurd (h' ',' (by simp)).2 (by decide)
    · rfl

theorem enm_read (o : Opts) (w t rest : List Char) (z : ℤ) (hw : Word w) (hr : Follows rest) (v : Var) (l : List (List Char × ℤ))
    (hs : ∀ c ∈ l, sound (c.1 ++ [' ']) = true) (h : selects o.ci w v (.enm l) = true) (ht : Word t) (hc : chooses o.ci l t z = true) :
    round langs o (w ++ '=' :: (t ++ rest)) = .yes (o.setInt v z) (skipbl rest) := by
  apply select_value o w _ hw v (.enm l) rfl h
  have := choose_name o.ci t rest ht hr.term z l hs hc
  simp only [take, ht.skipcom, this, hr.skipcom_skipbl]

theorem lang_read (o : Opts) (w rest : List Char) (l : Lang) (hw : Word w) (hr : Follows rest)
    (h : selects o.ci w .language .lang = true) (hl : langs.find? (fun x => x.name == l.name) = some l) (hp : Spice.Plain l.name) :
    round langs o (w ++ '=' :: (l.name ++ rest)) = .yes (o.setLang (some l)) (skipbl rest) := by
  apply select_value o w _ hw .language .lang rfl h
  have hn : Word l.name := ⟨hp.ne, fun c hc => ⟨hp.graph c hc, hp.noTerm c hc⟩⟩
  have := Spice.word_plain l.name rest hp hr.term
  simp only [take, findLang, hn.skipcom, this, hl, hr.skipcom]

/-! ### words that are no option -/

theorem tryAll_none (o : Opts) (w rest : List Char) (hw : Word w) (hr : isTerm rest = true) (h : firstFor o.ci w = none) :
    tryAll langs o table (w ++ rest) = .no (w ++ rest) := by
  have hm : ∀ e ∈ table, miss o.ci w e = true := by
    intro e he
    have := List.find?_eq_none.mp h e he
    simpa using this
  have := tryAll_misses langs o w rest hw hr [] table (fun e he => ⟨he, hm e he⟩)
  rw [List.append_nil] at this
  rw [this]
  rfl

/-- the first character is none an option starts with -/
def noneStarts (c : Char) : Bool :=
  table.all fun e =>
    (match e.segs with | .lit d :: _ => !eqc true c d && !eqc false c d | _ => false) &&
    (match e.noSegs with | .lit d :: _ => !eqc true c d && !eqc false c d | _ => false)

theorem tryAll_start (o : Opts) (c : Char) (s : List Char) (hg : isGraph c = true) (hc : noneStarts c = true) : ∀ l : List Entry,
    (∀ e ∈ l, e ∈ table) → tryAll langs o l (c :: s) = .no (c :: s)
  | [], _ => rfl
  | e :: l, hm => by
    have he := hm e (by simp)
    have h := List.all_eq_true.mp hc e he
    simp only [Bool.and_eq_true] at h
    obtain ⟨s1, s2, _⟩ := entry_sound he
    have key : ∀ p : List Char, sound p = true → (match segsOf none p with | .lit d :: _ => !eqc true c d && !eqc false c d | _ => false) = true →
        umatch o.ci p (c :: s) = .fail := by
      intro p hp hh
      rw [umatch_sound _ _ _ hp, Spice.skipbl_cons s hg]
      cases hseg : segsOf none p with
      | nil => rw [hseg] at hh; simp at hh
      | cons a q =>
        rw [hseg] at hh
        cases a with
        | lit d =>
          simp only [Bool.and_eq_true, Bool.not_eq_true'] at hh
          have : eqc o.ci c d = false := by cases o.ci; exact hh.2; exact hh.1
          simp [segMatch, this]
        | opt _ => simp at hh
        | delim => simp at hh
    have h1 := key _ s1 h.1
    have h2 := key _ s2 h.2
    have ih := tryAll_start o c s hg hc l (fun x hx => hm x (by simp [hx]))
    have h3 : tryEntry langs o e (c :: s) = .no (c :: s) := by
      unfold tryEntry
      rw [h1]
      simp only [h2]
      split <;> rfl
    simp only [tryAll, h3, ih]

theorem semi_starts : noneStarts ';' = true ∧ noneStarts '/' = true ∧ noneStarts '=' = true := by decide +kernel

theorem dropWhile_arg (w rest : List Char) (hw : ∀ c ∈ w, isArg c = true) (hr : ∀ c, rest.head? = some c → isArg c = false) :
    (w ++ rest).dropWhile isArg = rest := by
  induction w with
  | nil =>
    cases rest with
    | nil => rfl
    | cons c t => simp [hr c rfl]
  | cons c w ih =>
    rw [List.cons_append, List.dropWhile_cons_of_pos (hw c (by simp))]
    exact ih (fun x hx => hw x (by simp [hx]))

/-- a word to be skipped -/
theorem skiparg_word (c : Char) (w rest : List Char) (hg : isGraph c = true) (hc : c ≠ ',') (hw : ∀ c ∈ w, isArg c = true)
    (hr : ∀ c, rest.head? = some c → isArg c = false) : skiparg (c :: (w ++ rest)) = skipcom rest := by
  unfold skiparg
  rw [Spice.skipbl_cons _ hg]
  split
  · rename_i heq; cases heq
  · rename_i heq; cases heq; exact absurd rfl hc
  · rename_i heq; cases heq; rw [dropWhile_arg w rest hw hr]

/-- an unknown word is skipped -/
theorem unknown_word (o : Opts) (c : Char) (w rest : List Char) (hw : Word (c :: w)) (hr : isTerm rest = true) (h : firstFor o.ci (c :: w) = none)
    (hc : c ≠ ',' ∧ c ≠ '/' ∧ c ≠ ';' ∧ c ≠ '\'') (hwa : ∀ c ∈ w, isArg c = true) (hra : ∀ c, rest.head? = some c → isArg c = false) :
    round langs o (c :: (w ++ rest)) = .yes o (skipcom rest) := by
  have ht := tryAll_none (langs := langs) o (c :: w) rest hw hr h
  rw [List.cons_append] at ht
  have hg := (hw.2 c (by simp)).1
  have hk : check o.ci (c :: (w ++ rest)) = some (c :: (w ++ rest)) := by
    unfold check
    rw [Spice.skipbl_cons _ hg]
    split
    · rename_i heq; cases heq; exact absurd rfl hc.2.1
    · rename_i heq; cases heq; exact absurd rfl hc.2.2.1
    · rename_i heq; cases heq; exact absurd rfl hc.2.2.2
    · rfl
  unfold round
  rw [ht]
  simp only [hk]
  rw [skiparg_word c w rest hg hc.1 hwa hra]

theorem arg_facts : isArg '-' = true ∧ isArg ' ' = false ∧ isArg '=' = false := by decide

theorem digit_arg {c : Char} (h : isDigit c = true) : isArg c = true := by
  have : isFloat c = true := by unfold isFloat; simp [h]
  unfold isArg; simp [this]

theorem decText_arg (z : ℤ) : ∀ c ∈ decText z, isArg c = true := by
  intro c hc
  unfold decText at hc
  rw [List.mem_append] at hc
  rcases hc with hc | hc
  · split at hc
    · simp at hc; subst hc; exact arg_facts.1
    · cases hc
  · exact digit_arg (toDigits_digit 10 _ (by norm_num) (by norm_num) c hc)

theorem Follows.arg {rest : List Char} (h : Follows rest) : ∀ c, rest.head? = some c → isArg c = false := by
  rcases h with rfl | ⟨c, t, rfl, -⟩
  · intro c hc; cases hc
  · intro c hc; simp at hc; subst hc; exact arg_facts.2.1

/-- `=100` alone is skipped -/
theorem equals_word (o : Opts) (w rest : List Char) (hr : Follows rest) (hwa : ∀ c ∈ w, isArg c = true) :
    round langs o ('=' :: (w ++ rest)) = .yes o (skipbl rest) := by
  have hg : isGraph '=' = true := by decide
  have ht := tryAll_start (langs := langs) o '=' (w ++ rest) hg semi_starts.2.2 table (fun _ h => h)
  have hk : check o.ci ('=' :: (w ++ rest)) = some ('=' :: (w ++ rest)) := by
    unfold check
    rw [Spice.skipbl_cons _ hg]
    rfl
  unfold round
  rw [ht]
  simp only [hk]
  rw [skiparg_word '=' w rest hg (by decide) hwa hr.arg, hr.skipcom]

/-! ### an item of a printed line -/

/-- the printed names are those of the options; `itl@1` is not -/
def itemOk (ci : Bool) : Item → Bool
  | .flag n v => isWord n && selects ci n v .flag && isWord (['n', 'o'] ++ n) && selectsNo ci (['n', 'o'] ++ n) v
  | .num n v => isWord n && selects ci n v (.num (isPos v))
  | .int n v => isWord n &&
    if n.contains '@' then
      (match n with | 'i' :: w => w.all isArg | _ => false) && (firstFor ci n).isNone
    else
      decide (-(intMax : ℤ) - 1 ≤ lo v ∧ hi v ≤ intMax) && (selects ci n v .int || (selects ci n v .range && decide (1 ≤ lo v ∧ hi v ≤ 3)))
  | .uns n v => isWord n && selects ci n v .uns && decide (0 ≤ lo v ∧ hi v ≤ 2 ^ 32 - 1)
  | .oct n v => isWord n && selects ci n v .oct && decide (0 ≤ lo v ∧ hi v ≤ intMax)
  | .octNZ n v => isWord n && selects ci n v .oct && decide (0 ≤ lo v ∧ hi v ≤ intMax)
  | .enm n v names => isWord n && decide (0 ≤ lo v ∧ hi v < names.length) &&
    match table.find? (fun e => decide (e.var = v)) with
    | some e => (match e.kind with
      | .enm l => selects ci n v (.enm l) &&
        (List.range names.length).all fun k => decide ((k : ℤ) < lo v) || decide (hi v < k) ||
          (match names[k]? with | some t => isWord t && chooses ci l t k | none => false)
      | _ => false)
    | none => false
  | .lang n => isWord n && selects ci n .language .lang

theorem items_ok : (allLines.all fun l => l.all fun i => itemOk false i && itemOk true i) = true := by decide +kernel

theorem item_ok {l : List Item} (hl : l ∈ allLines) {i : Item} (hi : i ∈ l) (ci : Bool) : itemOk ci i = true := by
  have := List.all_eq_true.mp (List.all_eq_true.mp items_ok l hl) i hi
  simp only [Bool.and_eq_true] at this
  cases ci
  · exact this.1
  · exact this.2

/-- Specification of what reading the text of an item does, from `old`, which was printed, `rd x` being the value of the text of `x` -/
def restore (rd : ℚ → ℚ) (old : Opts) (o : Opts) : Item → Opts
  | .flag _ v => o.setFlag v (old.flag v)
  | .num _ v => o.setNum v (if isPos v then |rd (old.num v)| else rd (old.num v))
  | .int n v => if n.contains '@' then o else o.setInt v (old.int v)
  | .uns _ v | .oct _ v | .enm _ v _ => o.setInt v (old.int v)
  | .octNZ _ v => o.setInt v (if old.int v ≠ 0 then old.int v else o.int v)
  | .lang _ => o.setLang old.lang

/-- every item has a text -/
theorem item_text (sh : ℚ → List Char) (old : Opts) (hs : Sound langs old) {l : List Item} (hl : l ∈ allLines) {i : Item} (hi : i ∈ l) :
    ∃ t, i.text sh old = some t := by
  have h := item_ok hl hi false
  cases i with
  | enm n v names =>
    simp only [itemOk, Bool.and_eq_true, decide_eq_true_eq] at h
    obtain ⟨a, b⟩ := hs.int v
    have h1 : ¬ old.int v < 0 := by omega
    have h2 : (old.int v).toNat < names.length := by omega
    simp only [Item.text, if_neg h1, List.getElem?_eq_getElem h2, Option.map_some]
    exact ⟨_, rfl⟩
  | _ => exact ⟨_, rfl⟩

theorem line_text (sh : ℚ → List Char) (old : Opts) (hs : Sound langs old) {l : List Item} (hl : l ∈ allLines) : ∀ m : List Item, (∀ i ∈ m, i ∈ l) →
    ∃ t, lineText sh old m = some t
  | [], _ => ⟨[], rfl⟩
  | i :: m, hm => by
    obtain ⟨a, ha⟩ := item_text sh old hs hl (hm i (by simp))
    obtain ⟨b, hb⟩ := line_text sh old hs hl m (fun x hx => hm x (by simp [hx]))
    exact ⟨a ++ b, by simp [lineText, ha, hb]⟩

/-- **C75, printing**: in every sound state printing reads no name outside of its array. -/
theorem print_inside (sh : ℚ → List Char) (old : Opts) (hs : Sound langs old) : ∃ ts, printOpts sh old = some ts := by
  have : ∀ m : List (List Item), (∀ l ∈ m, l ∈ allLines) → ∃ ts, m.mapM (lineText sh old) = some ts := by
    intro m
    induction m with
    | nil => exact fun _ => ⟨[], rfl⟩
    | cons l m ih =>
      intro hm
      obtain ⟨a, ha⟩ := line_text sh old hs (hm l (by simp)) l (fun _ h => h)
      obtain ⟨b, hb⟩ := ih (fun x hx => hm x (by simp [hx]))
      exact ⟨a :: b, by simp [List.mapM_cons, ha, hb]⟩
  exact this allLines (fun _ h => h)

example : ∃ langs, Sound langs initial := ⟨[], (initial_settled []).toSound⟩

theorem word_head {w : List Char} (h : Word w) : ∃ c r, w = c :: r ∧ isGraph c = true ∧ c ≠ ',' ∧ c ≠ '=' := by
  obtain ⟨h1, h2⟩ := h
  cases w with
  | nil => exact absurd rfl h1
  | cons c r =>
    obtain ⟨a, b⟩ := h2 c (by simp)
    refine ⟨c, r, rfl, a, ?_, ?_⟩
    · rintro rfl; exact absurd b (by decide)
    · rintro rfl; exact absurd b (by decide)

/-- an item is nothing or two blanks and a word -/
theorem item_shape (sh : ℚ → List Char) (old : Opts) {i : Item} (h : itemOk false i = true) {t : List Char} (ht : i.text sh old = some t) :
    t = [] ∨ ∃ w r, t = ' ' :: ' ' :: (w ++ r) ∧ Word w := by
  cases i <;> simp only [itemOk, Bool.and_eq_true] at h <;> simp only [Item.text, Option.some.injEq] at ht
  case flag n v =>
    subst ht
    right
    split
    · exact ⟨n, [], by simp, word_of h.1.1.1⟩
    · exact ⟨['n', 'o'] ++ n, [], by simp, word_of h.1.2⟩
  case num n v => subst ht; exact .inr ⟨n, _, by simp only [List.cons_append, List.nil_append]; rfl, word_of h.1⟩
  case int n v => subst ht; exact .inr ⟨n, _, by simp only [List.cons_append, List.nil_append]; rfl, word_of h.1⟩
  case uns n v => subst ht; exact .inr ⟨n, _, by simp only [List.cons_append, List.nil_append]; rfl, word_of h.1.1⟩
  case oct n v => subst ht; exact .inr ⟨n, _, by simp only [List.cons_append, List.nil_append]; rfl, word_of h.1.1⟩
  case octNZ n v =>
    split at ht
    · subst ht; exact .inr ⟨n, _, by simp only [List.cons_append, List.nil_append]; rfl, word_of h.1.1⟩
    · subst ht; exact .inl rfl
  case enm n v names =>
    split at ht
    · cases ht
    · obtain ⟨t', -, rfl⟩ := Option.map_eq_some_iff.mp ht
      exact .inr ⟨n, _, by simp only [List.cons_append, List.nil_append]; rfl, word_of h.1.1⟩
  case lang n => subst ht; exact .inr ⟨n, _, by simp only [List.cons_append, List.nil_append]; rfl, word_of h.1⟩

theorem line_follows (sh : ℚ → List Char) (old : Opts) : ∀ (m : List Item) (t : List Char), (∀ i ∈ m, itemOk false i = true) →
    lineText sh old m = some t → Follows t
  | [], t, _, ht => by cases ht; exact .inl rfl
  | i :: m, t, hm, ht => by
    simp only [lineText] at ht
    obtain ⟨a, ha, ht⟩ := Option.bind_eq_some_iff.mp ht
    obtain ⟨b, hb, rfl⟩ := Option.map_eq_some_iff.mp ht
    rcases item_shape sh old (hm i (by simp)) ha with rfl | ⟨w, r, rfl, hw⟩
    · exact line_follows sh old m b (fun x hx => hm x (by simp [hx])) hb
    · obtain ⟨c, q, rfl, h1, h2, h3⟩ := word_head hw
      exact .inr ⟨c, q ++ r ++ b, by simp, h1, h2, h3⟩

theorem setInt_self (o : Opts) (v : Var) : o.setInt v (o.int v) = o := by
  unfold Opts.setInt
  have : (fun w => if w = v then o.int v else o.int w) = o.int := by
    funext w; split
    · rename_i h; rw [h]
    · rfl
  rw [this]

/-- a language as found again -/
def Findable (langs : List Lang) (old : Opts) : Prop :=
  ∃ l, old.lang = some l ∧ Spice.Plain l.name ∧ langs.find? (fun x => x.name == l.name) = some l

theorem word_steps {w : List Char} (hw : Word w) (s : List Char) {o o' : Opts} {r : List Char} (hr : Follows r)
    (h : round langs o (w ++ s) = .yes o' (skipbl r)) : Steps langs o (w ++ s) o' (skipbl r) := by
  have h1 : w ++ s ≠ [] := by
    intro h0
    exact hw.1 (List.append_eq_nil_iff.mp h0).1
  have := Steps.one h1 (hw.skipbl s) h
  rwa [Spice.skipbl_idem] at this

/-- reading an item that was printed -/
theorem item_read (sh : ℚ → List Char) (rd : ℚ → ℚ) (hsh : ∀ x, Shows (sh x) (rd x)) (old : Opts) (hs : Sound langs old) (hl : Findable langs old)
    {i : Item} (hi : ∀ ci, itemOk ci i = true) {t : List Char} (ht : i.text sh old = some t) (o : Opts) (rest : List Char) (hr : Follows rest) :
    Steps langs o (skipbl (t ++ rest)) (restore rd old o i) (skipbl rest) := by
  have h := hi o.ci
  have two : ∀ (w s : List Char), Word w → skipbl ([' ', ' '] ++ w ++ s) = w ++ s := by
    intro w s hw
    show skipbl (' ' :: ' ' :: (w ++ s)) = w ++ s
    rw [skipbl_two, hw.skipbl]
  have two' : ∀ (w s s' : List Char), Word w → skipbl ([' ', ' '] ++ w ++ '=' :: s ++ s') = w ++ '=' :: (s ++ s') := by
    intro w s s' hw
    have := two w ('=' :: (s ++ s')) hw
    rw [← this]
    simp
  cases i <;> simp only [itemOk, Bool.and_eq_true] at h <;> simp only [Item.text, Option.some.injEq] at ht
  case flag n v =>
    subst ht
    cases hf : old.flag v
    · have hw : Word (['n', 'o'] ++ n) := word_of h.1.2
      simp only [Bool.false_eq_true, if_false]
      rw [two _ _ hw]
      have := flag_clear (langs := langs) o _ rest hw hr v h.2
      simp only [restore, hf]
      exact word_steps hw _ hr this
    · have hw : Word n := word_of h.1.1.1
      simp only [if_true]
      rw [two _ _ hw]
      have := flag_set (langs := langs) o _ rest hw hr v h.1.1.2
      simp only [restore, hf]
      exact word_steps hw _ hr this
  case num n v =>
    subst ht
    have hw : Word n := word_of h.1
    rw [two' _ _ _ hw]
    exact word_steps hw _ hr (num_read o n rest _ _ hw hr v (isPos v) h.2 (hsh _))
  case int n v =>
    subst ht
    have hw : Word n := word_of h.1
    rw [two' _ _ _ hw]
    by_cases hc : n.contains '@' = true
    · rw [if_pos hc] at h
      simp only [Bool.and_eq_true] at h
      obtain ⟨-, h1, h2⟩ := h
      cases n with
      | nil => simp at h1
      | cons c w =>
        have hci : c = 'i' := by
          by_contra hne
          revert h1
          split
          · rename_i heq; cases heq; exact absurd rfl hne
          · simp
        subst hci
        simp only [List.all_eq_true] at h1
        have e1 := unknown_word (langs := langs) o 'i' w ('=' :: (decText (old.int v) ++ rest)) hw (by simp [isTerm, isTermChar])
          (Option.isNone_iff_eq_none.mp h2) (by decide) h1 (by intro c hc; simp at hc; subst hc; exact arg_facts.2.2)
        have e2 : skipcom ('=' :: (decText (old.int v) ++ rest)) = '=' :: (decText (old.int v) ++ rest) := by
          unfold Scan.skipcom
          rw [Spice.skipbl_cons _ (by decide)]
          rfl
        rw [e2] at e1
        have e3 := equals_word (langs := langs) o (decText (old.int v)) rest hr (decText_arg _)
        have hb : skipbl ('=' :: (decText (old.int v) ++ rest)) = '=' :: (decText (old.int v) ++ rest) := Spice.skipbl_cons _ (by decide)
        simp only [restore, if_pos hc]
        refine Steps.step (by simp) (hw.skipbl _) e1 ?_
        rw [hb]
        have := Steps.one (by simp) hb e3
        rwa [Spice.skipbl_idem] at this
    · rw [if_neg hc] at h
      simp only [Bool.and_eq_true, Bool.or_eq_true, decide_eq_true_eq] at h
      obtain ⟨-, ⟨b1, b2⟩, h3⟩ := h
      obtain ⟨a1, a2⟩ := hs.int v
      simp only [restore, if_neg hc]
      rcases h3 with h3 | ⟨h3, c1, c2⟩
      · exact word_steps hw _ hr (int_read o n rest _ hw hr v ⟨by omega, by omega⟩ h3)
      · exact word_steps hw _ hr (range_read o n rest _ hw hr v ⟨by omega, by omega⟩ h3)
  case uns n v =>
    subst ht
    simp only [decide_eq_true_eq] at h
    obtain ⟨⟨h1, h2⟩, b1, b2⟩ := h
    obtain ⟨a1, a2⟩ := hs.int v
    have hw : Word n := word_of h1
    rw [two' _ _ _ hw]
    exact word_steps hw _ hr (uns_read o n rest _ hw hr v ⟨by omega, by omega⟩ h2)
  case oct n v =>
    subst ht
    simp only [decide_eq_true_eq] at h
    obtain ⟨⟨h1, h2⟩, b1, b2⟩ := h
    obtain ⟨a1, a2⟩ := hs.int v
    have hw : Word n := word_of h1
    rw [two' _ _ _ hw]
    exact word_steps hw _ hr (oct_read o n rest _ hw hr v ⟨by omega, by omega⟩ h2)
  case octNZ n v =>
    simp only [decide_eq_true_eq] at h
    obtain ⟨⟨h1, h2⟩, b1, b2⟩ := h
    obtain ⟨a1, a2⟩ := hs.int v
    have hw : Word n := word_of h1
    simp only [restore]
    split at ht
    · rename_i hz
      subst ht
      rw [two' _ _ _ hw, if_pos hz]
      exact word_steps hw _ hr (oct_read o n rest _ hw hr v ⟨by omega, by omega⟩ h2)
    · rename_i hz
      subst ht
      rw [if_neg hz, setInt_self]
      exact .refl _ _
  case enm n v names =>
    simp only [decide_eq_true_eq] at h
    obtain ⟨⟨h1, b1, b2⟩, h2⟩ := h
    obtain ⟨a1, a2⟩ := hs.int v
    have hw : Word n := word_of h1
    rw [if_neg (by omega)] at ht
    obtain ⟨t', hn, rfl⟩ := Option.map_eq_some_iff.mp ht
    rw [two' _ _ _ hw]
    cases hf : table.find? (fun e => decide (e.var = v)) with
    | none => rw [hf] at h2; simp at h2
    | some e =>
      rw [hf] at h2
      simp only at h2
      have he := List.mem_of_find?_eq_some hf
      have hsnd := (entry_sound he).2.2
      cases hk : e.kind with
      | enm l =>
        rw [hk] at h2 hsnd
        simp only [Bool.and_eq_true, List.all_eq_true, List.mem_range, Bool.or_eq_true, decide_eq_true_eq] at h2
        obtain ⟨h2, h3⟩ := h2
        have h4 := h3 (old.int v).toNat (by omega)
        rw [hn] at h4
        rcases h4 with (h4 | h4) | h4
        · omega
        · omega
        · simp only [Bool.and_eq_true] at h4
          have hz : ((old.int v).toNat : ℤ) = old.int v := by omega
          rw [hz] at h4
          exact word_steps hw _ hr (enm_read o n t' rest _ hw hr v l hsnd h2 (word_of h4.1) h4.2)
      | _ => rw [hk] at h2; simp at h2
  case lang n =>
    obtain ⟨l, h1, h2, h3⟩ := hl
    rw [h1] at ht
    subst ht
    have hw : Word n := word_of h.1
    rw [two' _ _ _ hw]
    simp only [restore, h1]
    exact word_steps hw _ hr (lang_read o n rest l hw hr h.2 h3 h2)

theorem line_read (sh : ℚ → List Char) (rd : ℚ → ℚ) (hsh : ∀ x, Shows (sh x) (rd x)) (old : Opts) (hs : Sound langs old) (hl : Findable langs old) :
    ∀ (m : List Item) (t : List Char) (o : Opts), (∀ i ∈ m, ∀ ci, itemOk ci i = true) → lineText sh old m = some t →
    Steps langs o (skipbl t) (m.foldl (restore rd old) o) []
  | [], t, o, _, ht => by cases ht; exact .refl _ _
  | i :: m, t, o, hm, ht => by
    have hm' : ∀ i ∈ m, ∀ ci, itemOk ci i = true := fun x hx => hm x (by simp [hx])
    simp only [lineText] at ht
    obtain ⟨a, ha, ht⟩ := Option.bind_eq_some_iff.mp ht
    obtain ⟨b, hb, rfl⟩ := Option.map_eq_some_iff.mp ht
    have hf := line_follows sh old m b (fun x hx => hm' x hx false) hb
    exact (item_read sh rd hsh old hs hl (hm i (by simp)) ha o b hf).trans (line_read sh rd hsh old hs hl m b _ hm' hb)

/-- what reading all lines does, from `cur` -/
def restoreAll (rd : ℚ → ℚ) (old cur : Opts) (m : List (List Item)) : Opts :=
  m.foldl (fun o l => finish (l.foldl (restore rd old) o) true) cur

theorem lines_read (sh : ℚ → List Char) (rd : ℚ → ℚ) (hsh : ∀ x, Shows (sh x) (rd x)) (old : Opts) (hs : Sound langs old) (hl : Findable langs old) (n : ℕ) :
    ∀ (m : List (List Item)) (ts : List (List Char)) (cur : Opts), m ≠ [] → (∀ l ∈ m, l ∈ allLines) → m.mapM (lineText sh old) = some ts →
    (∀ t ∈ ts, t ≠ [] ∧ t.length < n) → readLines langs n cur ts = .done (restoreAll rd old cur m) true
  | [], _, _, h, _, _, _ => absurd rfl h
  | l :: m, ts, cur, _, hm, ht, hn => by
    rw [List.mapM_cons] at ht
    obtain ⟨a, ha, ht⟩ := Option.bind_eq_some_iff.mp ht
    obtain ⟨b, hb, ht⟩ := Option.bind_eq_some_iff.mp ht
    cases ht
    have hok : ∀ i ∈ l, ∀ ci, itemOk ci i = true := fun i hi ci => item_ok (hm l (by simp)) hi ci
    have hst := line_read sh rd hsh old hs hl l a cur hok ha
    have hf := line_follows sh old l a (fun i hi => hok i hi false) ha
    obtain ⟨hne, hlen⟩ := hn a (by simp)
    have hne' : skipbl a ≠ [] := by
      rcases hf with h0 | ⟨c, t, rfl, hc, -⟩
      · exact absurd h0 hne
      · rw [skipbl_two, Spice.skipbl_cons t hc]; simp
    have hlen' := skipbl_len a
    have key := loop_steps hst rfl n false hne' (by omega)
    simp only [readLines, setValues, hf.skipcom, key]
    cases m with
    | nil =>
      have : b = [] := by simpa using hb.symm
      subst this
      simp [restoreAll]
    | cons l' m =>
      have hb0 : b ≠ [] := by
        rintro rfl
        rw [List.mapM_cons] at hb
        obtain ⟨_, -, hb⟩ := Option.bind_eq_some_iff.mp hb
        obtain ⟨_, -, hb⟩ := Option.bind_eq_some_iff.mp hb
        cases hb
      rw [if_neg hb0]
      exact lines_read sh rd hsh old hs hl n (l' :: m) b _ (by simp) (fun x hx => hm x (by simp [hx])) hb (fun x hx => hn x (by simp [hx]))

/-! ### what is there afterwards -/

/-- Specification: the flags, numbers and integers that come back -/
def backFlags : List Var := [.acct, .listing, .clobber, .edit, .insensitive, .bypass, .incmode, .lcbypass, .lubypass, .fbbypass, .traceload,
  .quitconvfail, .rstray, .cstray]
def backNums : List Var := [.ydivisions, .floor, .vfloor, .roundofftol, .gmin, .shortckt, .reltol, .abstol, .vntol, .trtol, .chgtol, .pivtol,
  .bypasstol, .loadtol, .vmax, .vmin, .dampmax, .dampmin, .dtmin, .dtratio, .trstepgrow, .trstephold, .trstepshrink, .trreject, .trstepcoef1,
  .trstepcoef2, .trstepcoef3, .tnom_c, .temp_c, .defl, .defw, .defad, .defas]
def backInts : List Var := [.outwidth, .phase, .harmonics, .units, .recursion, .numdgt, .method, .order, .mode, .transits, .itermin, .dampstrategy,
  .trsteporder]

theorem restored_flag (rd : ℚ → ℚ) (old cur : Opts) (l : Lang) (hl : old.lang = some l) (v : Var) :
    (restoreAll rd old cur allLines).flag v = if v ∈ backFlags then old.flag v else cur.flag v := by
  obtain ⟨f, n, i, la, a, b⟩ := old
  simp only at hl
  subst hl
  cases v <;> rfl

theorem restored_num (rd : ℚ → ℚ) (old cur : Opts) (l : Lang) (hl : old.lang = some l) (v : Var) :
    (restoreAll rd old cur allLines).num v = if v ∈ backNums then (if isPos v then |rd (old.num v)| else rd (old.num v)) else cur.num v := by
  obtain ⟨f, n, i, la, a, b⟩ := old
  simp only at hl
  subst hl
  cases v <;> rfl

theorem restored_int (rd : ℚ → ℚ) (old cur : Opts) (l : Lang) (hl : old.lang = some l) (v : Var) (hv : v ≠ .numdgt) :
    (restoreAll rd old cur allLines).int v =
      if v ∈ backInts then old.int v else if v = .diodeflags ∨ v = .mosflags then (if old.int v ≠ 0 then old.int v else cur.int v) else cur.int v := by
  obtain ⟨f, n, i, la, a, b⟩ := old
  simp only at hl
  subst hl
  cases v <;> first | rfl | exact absurd rfl hv

theorem toRange_id {z : ℤ} (h : 3 ≤ z ∧ z ≤ 20) : toRange 3 z 20 = z := by unfold toRange; omega

theorem restored_numdgt (rd : ℚ → ℚ) (old cur : Opts) (l : Lang) (hl : old.lang = some l) (h : 3 ≤ old.int .numdgt ∧ old.int .numdgt ≤ 20) :
    (restoreAll rd old cur allLines).int .numdgt = old.int .numdgt := by
  have : (restoreAll rd old cur allLines).int .numdgt =
      toRange 3 (toRange 3 (toRange 3 (toRange 3 (toRange 3 (toRange 3 (old.int .numdgt) 20) 20) 20) 20) 20) 20 := by
    obtain ⟨f, n, i, la, a, b⟩ := old
    simp only at hl
    subst hl
    rfl
  rw [this]
  simp only [toRange_id h]

theorem restored_lang (rd : ℚ → ℚ) (old cur : Opts) : (restoreAll rd old cur allLines).lang = old.lang := rfl

/-- no line is empty -/
theorem text_ne (sh : ℚ → List Char) (old : Opts) (l : List Item) (hl : l ∈ allLines) (t : List Char) (ht : lineText sh old l = some t) : t ≠ [] := by
  have hh : (allLines.all fun l => match l with | [] => false | .octNZ _ _ :: _ => false | _ => true) = true := by decide
  have h := List.all_eq_true.mp hh l hl
  cases l with
  | nil => simp at h
  | cons i l =>
    simp only [lineText] at ht
    obtain ⟨a, ha, ht⟩ := Option.bind_eq_some_iff.mp ht
    obtain ⟨b, hb, rfl⟩ := Option.map_eq_some_iff.mp ht
    intro h0
    have ha0 := (List.append_eq_nil_iff.mp h0).1
    subst ha0
    cases i <;> simp only [Item.text, Option.some.injEq] at ha
    case octNZ => simp at h
    case enm n v names =>
      split at ha
      · cases ha
      · obtain ⟨_, -, hx⟩ := Option.map_eq_some_iff.mp ha
        simp at hx
    all_goals simp at ha

theorem lines_ne (sh : ℚ → List Char) (old : Opts) : ∀ (m : List (List Item)) (ts : List (List Char)), (∀ l ∈ m, l ∈ allLines) →
    m.mapM (lineText sh old) = some ts → ∀ t ∈ ts, t ≠ []
  | [], ts, _, ht, t, hm => by
    have : ts = [] := by simpa using ht.symm
    subst this; cases hm
  | l :: m, ts, hm, ht, t, hmem => by
    rw [List.mapM_cons] at ht
    obtain ⟨a, ha, ht⟩ := Option.bind_eq_some_iff.mp ht
    obtain ⟨b, hb, ht⟩ := Option.bind_eq_some_iff.mp ht
    cases ht
    rcases List.mem_cons.mp hmem with rfl | hmem
    · exact text_ne sh old l (hm l (by simp)) _ ha
    · exact lines_ne sh old m b (fun x hx => hm x (by simp [hx])) hb t hmem

/-- **C75, round trip**: what `options` prints, read again in whatever state, gives back every flag, number (as far as its text does) and
integer in the lists above, and the language.  Options that are not printed are left alone.  Missing from the full statement, that all
printed options come back: the iteration limits (`limits_lost`), flags of diodes and mosfets that are 0 (`zero_flags_lost`), and the
language while none is set. -/
theorem print_read_partial (sh : ℚ → List Char) (rd : ℚ → ℚ) (hsh : ∀ x, Shows (sh x) (rd x)) (hpos : ∀ x, 0 ≤ x → 0 ≤ rd x) (old cur : Opts)
    (hs : Settled langs old) (hl : Findable langs old) (ts : List (List Char)) (ht : printOpts sh old = some ts) (n : ℕ)
    (hn : ∀ t ∈ ts, t.length < n) :
    ∃ new, readLines langs n cur ts = .done new true ∧ new.lang = old.lang ∧
      (∀ v, new.flag v = if v ∈ backFlags then old.flag v else cur.flag v) ∧
      (∀ v, new.num v = if v ∈ backNums then rd (old.num v) else cur.num v) ∧
      (∀ v ∈ backInts, new.int v = old.int v) ∧
      (∀ v ∉ backInts, v ≠ .diodeflags → v ≠ .mosflags → new.int v = cur.int v) ∧
      (∀ v, v = .diodeflags ∨ v = .mosflags → new.int v = if old.int v ≠ 0 then old.int v else cur.int v) := by
  have hne := lines_ne sh old allLines ts (fun _ h => h) ht
  have hr := lines_read sh rd hsh old hs.toSound hl n allLines ts cur (by decide) (fun _ h => h) ht (fun t h => ⟨hne t h, hn t h⟩)
  obtain ⟨l, h1, -⟩ := hl
  refine ⟨_, hr, restored_lang rd old cur, restored_flag rd old cur l h1, ?_, ?_, ?_, ?_⟩
  · intro v
    rw [restored_num rd old cur l h1]
    by_cases hp : isPos v = true
    · rw [if_pos hp, abs_of_nonneg (hpos _ (hs.pos v hp))]
    · rw [if_neg hp]
  · intro v hv
    by_cases hd : v = .numdgt
    · subst hd; exact restored_numdgt rd old cur l h1 hs.digits
    · rw [restored_int rd old cur l h1 v hd, if_pos hv]
  · intro v hv h2 h3
    have hd : v ≠ .numdgt := by rintro rfl; exact hv (by decide)
    rw [restored_int rd old cur l h1 v hd, if_neg hv, if_neg (by rintro (h | h); exact h2 h; exact h3 h)]
  · intro v hv
    have hd : v ≠ .numdgt := by rintro rfl; rcases hv with h | h <;> cases h
    have hb : v ∉ backInts := by rcases hv with rfl | rfl <;> decide
    rw [restored_int rd old cur l h1 v hd, if_neg hb, if_pos hv]

/-- a language -/
def someLang : Lang := ⟨['s', 'p', 'i', 'c', 'e'], true, 1⟩

theorem floor_shows (x : ℚ) : Shows (decText ⌊x⌋) ((⌊x⌋ : ℤ) : ℚ) := decText_shows _

theorem started_settled : Settled [someLang] (initial.setLang (some someLang)) := by
  have h := initial_settled [someLang]
  have h2 := h.toSound.setLang (langs := [someLang]) (by intro l hl; simp at hl; subst hl; decide) (some someLang)
    (by intro x hx; cases hx; simp)
  exact ⟨h2, h.low, h.up, h.digits⟩

theorem started_findable : Findable [someLang] (initial.setLang (some someLang)) :=
  ⟨someLang, rfl, ⟨by decide, by decide, by decide, by decide⟩, rfl⟩

example : (∀ x : ℚ, Shows (decText ⌊x⌋) ((⌊x⌋ : ℤ) : ℚ)) ∧ (∀ x : ℚ, 0 ≤ x → 0 ≤ ((⌊x⌋ : ℤ) : ℚ)) ∧
    Settled [someLang] (initial.setLang (some someLang)) ∧ Findable [someLang] (initial.setLang (some someLang)) ∧
    ∃ ts, printOpts (fun x => decText ⌊x⌋) (initial.setLang (some someLang)) = some ts ∧ ∃ n, ∀ t ∈ ts, t.length < n := by
  refine ⟨floor_shows, fun x hx => by exact_mod_cast Int.floor_nonneg.mpr hx, started_settled, started_findable, ?_⟩
  obtain ⟨ts, ht⟩ := print_inside (fun x => decText ⌊x⌋) _ started_settled.toSound
  refine ⟨ts, ht, (ts.map List.length).sum + 1, fun t h => ?_⟩
  have := List.le_sum_of_mem (List.mem_map_of_mem (f := List.length) h)
  omega

/-- **C75, violated**: iteration limits are printed, but as `itl@1=`, which is not understood: reading what was printed leaves
the limits as they are, whatever they were when it was printed (u_opt2.cc:269-272, 177-184). -/
theorem limits_lost (sh : ℚ → List Char) (rd : ℚ → ℚ) (hsh : ∀ x, Shows (sh x) (rd x)) (old cur : Opts)
    (hs : Settled langs old) (hl : Findable langs old) (ts : List (List Char)) (ht : printOpts sh old = some ts) (n : ℕ)
    (hn : ∀ t ∈ ts, t.length < n) : ∃ new, readLines langs n cur ts = .done new true ∧
      ∀ v ∈ [Var.itl1, .itl2, .itl3, .itl4, .itl5, .itl6, .itl7, .itl8], new.int v = cur.int v := by
  have hne := lines_ne sh old allLines ts (fun _ h => h) ht
  have hr := lines_read sh rd hsh old hs.toSound hl n allLines ts cur (by decide) (fun _ h => h) ht (fun t h => ⟨hne t h, hn t h⟩)
  obtain ⟨l, h1, -⟩ := hl
  refine ⟨_, hr, fun v hv => ?_⟩
  simp only [List.mem_cons, List.not_mem_nil, or_false] at hv
  rcases hv with rfl | rfl | rfl | rfl | rfl | rfl | rfl | rfl <;> rw [restored_int rd old cur l h1 _ (by decide)] <;> rfl

/-- **C75, violated**: flags of diodes that were 0 when printed do not become 0 (u_opt2.cc:303-308). -/
theorem zero_flags_lost (sh : ℚ → List Char) (rd : ℚ → ℚ) (hsh : ∀ x, Shows (sh x) (rd x)) (old cur : Opts)
    (hs : Settled langs old) (hl : Findable langs old) (h0 : old.int .diodeflags = 0) (ts : List (List Char)) (ht : printOpts sh old = some ts) (n : ℕ)
    (hn : ∀ t ∈ ts, t.length < n) : ∃ new, readLines langs n cur ts = .done new true ∧ new.int .diodeflags = cur.int .diodeflags := by
  have hne := lines_ne sh old allLines ts (fun _ h => h) ht
  have hr := lines_read sh rd hsh old hs.toSound hl n allLines ts cur (by decide) (fun _ h => h) ht (fun t h => ⟨hne t h, hn t h⟩)
  obtain ⟨l, h1, -⟩ := hl
  refine ⟨_, hr, ?_⟩
  rw [restored_int rd old cur l h1 _ (by decide), if_neg (by decide), if_pos (.inl rfl), if_neg (by simpa using h0)]

/-! ### comments -/

/-- **C75, violated**: a comment behind `;` is not skipped; one word of it is, and what follows is taken for options
(ap_error.cc:37-48, u_opt2.cc:185, ap_skip.cc:96-113). -/
theorem comment_read (o : Opts) (c : Char) (w rest : List Char) (hc : isGraph c = true ∧ c ≠ ',') (hw : ∀ c ∈ w, isArg c = true)
    (hr : ∀ c, rest.head? = some c → isArg c = false) :
    round langs o (';' :: ' ' :: c :: (w ++ rest)) = .yes o (skipcom rest) := by
  have ht := tryAll_start (langs := langs) o ';' (' ' :: c :: (w ++ rest)) (by decide) semi_starts.1 table (fun _ h => h)
  have hk : check o.ci (';' :: ' ' :: c :: (w ++ rest)) = some (' ' :: c :: (w ++ rest)) := by
    unfold check
    rw [Spice.skipbl_cons _ (by decide)]
    rfl
  have hb : skiparg (' ' :: c :: (w ++ rest)) = skiparg (c :: (w ++ rest)) := by
    have h : isGraph ' ' = false := by decide
    have : skipbl (' ' :: c :: (w ++ rest)) = skipbl (c :: (w ++ rest)) := by simp [skipbl, h]
    unfold skiparg
    rw [this]
  unfold round
  rw [ht]
  simp only [hk]
  rw [hb, skiparg_word c w rest hc.1 hc.2 hw hr]

/-- so a comment sets options: `; was gmin=1` sets `gmin` to 1, as it does for every number and every word in place of `was` -/
theorem comment_sets (o : Opts) (e : Entry) (he : e ∈ table) (p : Bool) (hk : e.kind = .num p) (name : List Char) (hname : name ∈ writings e.key)
    (c : Char) (w t : List Char) (x : ℚ) (hc : isGraph c = true ∧ c ≠ ',') (hw : ∀ c ∈ w, isArg c = true) (ht : Shows t x) (n : ℕ)
    (hn : (';' :: ' ' :: c :: (w ++ ' ' :: (name ++ '=' :: t))).length < n) :
    setValues langs n o (';' :: ' ' :: c :: (w ++ ' ' :: (name ++ '=' :: t))) =
      .done (finish (o.setNum e.var (if p then |x| else x)) true) true := by
  have hchk := List.all_eq_true.mp (List.all_eq_true.mp names_checked e he) name hname
  simp only [Bool.and_eq_true] at hchk
  have hword : Word name := word_of hchk.1.1
  have hsel : selects o.ci name e.var (.num p) = true := by
    rw [← hk]
    cases o.ci
    · exact hchk.1.2
    · exact hchk.2
  have h1 := comment_read (langs := langs) o c w (' ' :: (name ++ '=' :: t)) hc hw (by intro a ha; simp at ha; subst ha; exact arg_facts.2.1)
  have h2 := num_read (langs := langs) o name [] t x hword (.inl rfl) e.var p hsel ht
  rw [List.append_nil] at h2
  have hb : skipbl (skipcom (' ' :: (name ++ '=' :: t))) = name ++ '=' :: t := by
    have h : isGraph ' ' = false := by decide
    have h3 : skipbl (' ' :: (name ++ '=' :: t)) = name ++ '=' :: t := by
      have : skipbl (' ' :: (name ++ '=' :: t)) = skipbl (name ++ '=' :: t) := by simp [skipbl, h]
      rw [this, hword.skipbl]
    have h4 := hword.skipcom ('=' :: t)
    have h5 : skipcom (' ' :: (name ++ '=' :: t)) = skipcom (name ++ '=' :: t) := by
      unfold Scan.skipcom
      rw [h3, hword.skipbl]
    rw [h5, h4, hword.skipbl]
  have hst : Steps langs o (';' :: ' ' :: c :: (w ++ ' ' :: (name ++ '=' :: t))) (o.setNum e.var (if p then |x| else x)) [] := by
    refine .step (by simp) (Spice.skipbl_cons _ (by decide)) h1 ?_
    rw [hb]
    exact word_steps hword _ (.inl rfl) h2
  exact loop_steps hst rfl n false (by simp) hn

/-- `; was gmin=1` -/
example : (⟨['g', 'm', 'i', 'n'], .gmin, .num true⟩ : Entry) ∈ table ∧ ['g', 'm', 'i', 'n'] ∈ writings ['g', 'm', 'i', 'n'] ∧
    (isGraph 'w' = true ∧ 'w' ≠ ',') ∧ (∀ c ∈ ['a', 's'], isArg c = true) ∧ Shows ['1'] 1 := by
  refine ⟨by simp [table], by decide, by decide, by decide, ?_⟩
  have := decText_shows 1
  exact_mod_cast this

/-- **C75, violated**: `//` at the end of the line is read over (ap_error.cc:41, ap.h:148): the character behind the end is fetched. -/
theorem slash_end_ub (o : Opts) : round langs o ['/', '/'] = .ub := by
  have ht := tryAll_start (langs := langs) o '/' ['/'] (by decide) semi_starts.2.1 table (fun _ h => h)
  have hm : umatch o.ci ['/', '/'] ['/', '/'] = .ok [] := by
    have : sound ['/', '/'] = true := by decide
    rw [umatch_sound _ _ _ this]
    cases o.ci <;> rfl
  have hk : check o.ci ['/', '/'] = none := by
    unfold check
    rw [Spice.skipbl_cons _ (by decide)]
    simp only [hm]
  unfold round
  rw [ht]
  simp only [hk]

/-- a command that ends, from a settled state: both `loop_ends` and `settled_kept` apply to it -/
example : LangsOk [someLang] ∧ Settled [someLang] (initial.setLang (some someLang)) ∧
    ∃ o', setValues [someLang] 30 (initial.setLang (some someLang)) [';', ' ', 'w', 'a', 's', ' ', 'g', 'm', 'i', 'n', '=', '1'] = .done o' true := by
  refine ⟨by intro l hl; simp at hl; subst hl; decide, started_settled, ?_⟩
  have h : Shows ['1'] 1 := by exact_mod_cast decText_shows 1
  refine ⟨_, comment_sets (langs := [someLang]) (initial.setLang (some someLang)) ⟨['g', 'm', 'i', 'n'], .gmin, .num true⟩ (by simp [table]) true rfl
    ['g', 'm', 'i', 'n'] (by decide) 'w' ['a', 's'] ['1'] 1 (by decide) (by decide) h 30 (by decide)⟩

end Gnucap.Opt
