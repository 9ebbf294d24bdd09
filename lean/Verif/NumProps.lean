import Verif.NumModel
import Mathlib.Tactic.Linarith
import Mathlib.Tactic.Ring
import Mathlib.Tactic.FieldSimp
import Mathlib.Tactic.NormNum
import Mathlib.Tactic.IntervalCases
import Mathlib.Tactic.Positivity
import Mathlib.Data.List.Induction

/-!
# Reading numbers (C45)
-/
namespace Gnucap.Num
open Gnucap.Scan

/-! ### specification: numerals and their values -/

/-- the number with the decimal digits `ds`, most significant first -/
def value (ds : List ℕ) : ℕ := ds.foldl (fun v d => 10 * v + d) 0

/-- what may follow the digits -/
inductive Suffix where
  /-- an exponent and a unit: `e-12`, `E3V` -/
  | exp (upper : Bool) (sgn : Option Bool) (ds : List ℕ) (unit : List Char)
  /-- a word, possibly empty, its beginning being a scale factor: `k`, `uHenry`, `%` -/
  | word (w : List Char)

/-- a decimal number as written by people: `-12.5kOhm` -/
structure Numeral where
  /-- written sign, `true` for minus -/
  sgn : Option Bool
  ip : List ℕ
  dot : Bool
  fp : List ℕ
  suf : Suffix

/-- scale factors: the first entry that begins the word counts.  `M` is special. -/
def table : Units → List (List Char × ℚ)
  | .si => [(['M'], 10 ^ 6), (['m'], 1 / 10 ^ 3), (['u'], 1 / 10 ^ 6), (['U'], 1 / 10 ^ 6), (['n'], 1 / 10 ^ 9), (['N'], 1 / 10 ^ 9),
      (['p'], 1 / 10 ^ 12), (['P'], 10 ^ 15), (['f'], 1 / 10 ^ 15), (['F'], 1 / 10 ^ 15), (['a'], 1 / 10 ^ 18), (['A'], 1 / 10 ^ 18),
      (['k'], 10 ^ 3), (['K'], 10 ^ 3), (['g'], 10 ^ 9), (['G'], 10 ^ 9), (['t'], 10 ^ 12), (['T'], 10 ^ 12), (['%'], 1 / 10 ^ 2)]
  | .spice => [(['m', 'e'], 10 ^ 6), (['m', 'E'], 10 ^ 6), (['M', 'e'], 10 ^ 6), (['M', 'E'], 10 ^ 6),
      (['m', 'i'], 254 / 10 ^ 7), (['m', 'I'], 254 / 10 ^ 7), (['M', 'i'], 254 / 10 ^ 7), (['M', 'I'], 254 / 10 ^ 7),
      (['m'], 1 / 10 ^ 3), (['M'], 1 / 10 ^ 3), (['u'], 1 / 10 ^ 6), (['U'], 1 / 10 ^ 6), (['n'], 1 / 10 ^ 9), (['N'], 1 / 10 ^ 9),
      (['p'], 1 / 10 ^ 12), (['P'], 1 / 10 ^ 12), (['f'], 1 / 10 ^ 15), (['F'], 1 / 10 ^ 15), (['a'], 1 / 10 ^ 18), (['A'], 1 / 10 ^ 18),
      (['k'], 10 ^ 3), (['K'], 10 ^ 3), (['g'], 10 ^ 9), (['G'], 10 ^ 9), (['t'], 10 ^ 12), (['T'], 10 ^ 12), (['%'], 1 / 10 ^ 2)]

def factor (u : Units) (w : List Char) : ℚ := (((table u).find? fun e => e.1.isPrefixOf w).map (·.2)).getD 1

def sgnText : Option Bool → List Char
  | none => []
  | some true => ['-']
  | some false => ['+']

def Suffix.text : Suffix → List Char
  | .exp up s ds unit => (if up then 'E' else 'e') :: sgnText s ++ ds.map dchar ++ unit
  | .word w => w

def Suffix.factor (u : Units) : Suffix → ℚ
  | .exp _ s ds _ => (10 : ℚ) ^ (if s = some true then -(value ds : ℤ) else (value ds : ℤ))
  | .word w => Num.factor u w

def Numeral.text (n : Numeral) : List Char :=
  sgnText n.sgn ++ n.ip.map dchar ++ (if n.dot then ['.'] else []) ++ n.fp.map dchar ++ n.suf.text

def Numeral.value (u : Units) (n : Numeral) : ℚ :=
  (if n.sgn = some true then -1 else 1) * ((Num.value (n.ip ++ n.fp) : ℚ) / 10 ^ n.fp.length) * n.suf.factor u

/-- a word of letters not beginning with e, or `%` and letters -/
def Word (w : List Char) : Prop :=
  (∀ c ∈ w.tail, isAlpha c = true) ∧ (∀ c, w.head? = some c → (isAlpha c = true ∧ c ≠ 'e' ∧ c ≠ 'E') ∨ c = '%')

/-- well formed: digits are digits; digits after the point only with a point; something at the beginning that is a number -/
structure Numeral.Wf (n : Numeral) : Prop where
  ip : ∀ d ∈ n.ip, d < 10
  fp : ∀ d ∈ n.fp, d < 10
  frac : n.dot = false → n.fp = []
  some_digit : n.ip ≠ [] ∨ n.fp ≠ []
  suf : match n.suf with
    | .exp _ _ ds unit => ds ≠ [] ∧ (∀ d ∈ ds, d < 10) ∧ Num.value ds ≤ intMax ∧ ∀ c ∈ unit, isAlpha c = true
    | .word w => Word w

/-- the text that follows does not go on with the number -/
def Stops (s : List Char) : Prop := ∀ c, s.head? = some c → isDigit c = false ∧ isAlpha c = false ∧ c ≠ '.' ∧ c ≠ '%'

/-! ### digits -/

theorem dchar_toNat (d : ℕ) (h : d < 10) : (dchar d).toNat = 48 + d := by
  unfold dchar; interval_cases d <;> rfl

theorem isDigit_dchar (d : ℕ) (h : d < 10) : isDigit (dchar d) = true := by
  unfold isDigit; rw [dchar_toNat d h]; simp; omega

theorem digitVal_dchar (d : ℕ) (h : d < 10) : digitVal (dchar d) = d := by
  unfold digitVal; rw [dchar_toNat d h]; omega

theorem foldl_value (v : ℕ) (ds : List ℕ) : ds.foldl (fun v d => 10 * v + d) v = v * 10 ^ ds.length + value ds := by
  unfold value
  induction ds generalizing v with
  | nil => simp
  | cons d ds ih =>
    simp only [List.foldl_cons, List.length_cons]
    rw [ih, ih (10 * 0 + d)]
    ring

theorem value_append (a b : List ℕ) : value (a ++ b) = value a * 10 ^ b.length + value b := by
  have : value (a ++ b) = b.foldl (fun v d => 10 * v + d) (value a) := by unfold value; rw [List.foldl_append]
  rw [this, foldl_value]

theorem value_cons (d : ℕ) (ds : List ℕ) : value (d :: ds) = d * 10 ^ ds.length + value ds := by
  have := value_append [d] ds
  simpa [value] using this

theorem value_snoc (ds : List ℕ) (d : ℕ) : value (ds ++ [d]) = 10 * value ds + d := by
  rw [value_append]; simp [value]; ring

/-- no digit at the beginning -/
def NoDigit (s : List Char) : Prop := ∀ c, s.head? = some c → isDigit c = false

theorem digits_stop (v : ℚ) (s : List Char) (h : NoDigit s) : digits v s = (v, s) := by
  cases s with
  | nil => rfl
  | cons c r => simp [digits, h c rfl]

theorem digits_eq (v : ℚ) (ds : List ℕ) (hd : ∀ d ∈ ds, d < 10) (s : List Char) (h : NoDigit s) :
    digits v (ds.map dchar ++ s) = (v * 10 ^ ds.length + value ds, s) := by
  induction ds generalizing v with
  | nil => simp [digits_stop v s h, value]
  | cons d ds ih =>
    have hd0 := hd d (by simp)
    simp only [List.map_cons, List.cons_append, digits, isDigit_dchar d hd0, if_true, digitVal_dchar d hd0]
    rw [ih _ (fun x hx => hd x (by simp [hx]))]
    rw [value_cons]
    simp only [List.length_cons, Prod.mk.injEq, and_true]
    push_cast
    ring

theorem fracDigits_eq (v p : ℚ) (ds : List ℕ) (hd : ∀ d ∈ ds, d < 10) (s : List Char) (h : NoDigit s) :
    fracDigits v p (ds.map dchar ++ s) = (v * 10 ^ ds.length + value ds, p / 10 ^ ds.length, s) := by
  induction ds generalizing v p with
  | nil =>
    have : fracDigits v p s = (v, p, s) := by
      cases s with
      | nil => rfl
      | cons c r => simp [fracDigits, h c rfl]
    simp [this, value]
  | cons d ds ih =>
    have hd0 := hd d (by simp)
    simp only [List.map_cons, List.cons_append, fracDigits, isDigit_dchar d hd0, if_true, digitVal_dchar d hd0]
    rw [ih _ _ (fun x hx => hd x (by simp [hx]))]
    rw [value_cons]
    simp only [List.length_cons, Prod.mk.injEq, and_true]
    push_cast
    constructor
    · ring
    · rw [pow_succ]; field_simp

theorem value_le_append (a b : List ℕ) : value a ≤ value (a ++ b) := by
  rw [value_append]
  have : 1 ≤ 10 ^ b.length := Nat.one_le_pow _ _ (by norm_num)
  nlinarith

theorem expDigits_eq (pre ds : List ℕ) (hd : ∀ d ∈ ds, d < 10) (s : List Char) (h : NoDigit s) (hm : value (pre ++ ds) ≤ intMax) :
    expDigits (value pre) (ds.map dchar ++ s) = some (value (pre ++ ds), s) := by
  induction ds generalizing pre with
  | nil =>
    simp only [List.map_nil, List.nil_append, List.append_nil]
    cases s with
    | nil => rfl
    | cons c r => simp [expDigits, h c rfl]
  | cons d ds ih =>
    have hd0 := hd d (by simp)
    simp only [List.map_cons, List.cons_append, expDigits, isDigit_dchar d hd0, if_true, digitVal_dchar d hd0]
    have e : pre ++ d :: ds = (pre ++ [d]) ++ ds := by simp
    rw [e] at hm ⊢
    rw [← value_snoc]
    rw [if_neg (not_lt.mpr ((value_le_append _ _).trans hm))]
    exact ih (pre ++ [d]) (fun x hx => hd x (by simp [hx])) hm

theorem dchar_ne (d : ℕ) (h : d < 10) (c : Char) (hc : isDigit c = false) : dchar d ≠ c := by
  intro he; rw [← he, isDigit_dchar d h] at hc; cases hc

/-- sign, then something that is not a sign -/
theorem sign_eq (sg : Option Bool) (s : List Char) (h : ∀ c, s.head? = some c → c ≠ '-' ∧ c ≠ '+') :
    sign (sgnText sg ++ s) = (decide (sg = some true), s) := by
  cases sg with
  | none =>
    cases s with
    | nil => rfl
    | cons c r =>
      have := h c rfl
      simp [sgnText, sign, skip1, this.1, this.2]
  | some b =>
    cases b
    · simp [sgnText, sign, skip1]
    · simp [sgnText, sign, skip1]

/-! ### suffixes -/

theorem word_drop (w s : List Char) (hw : ∀ c ∈ w, isAlpha c = true) (hs : ∀ c, s.head? = some c → isAlpha c = false) :
    (w ++ s).dropWhile isAlpha = s := by
  induction w with
  | nil =>
    cases s with
    | nil => rfl
    | cons c r => simp [hs c rfl]
  | cons c w ih =>
    simp only [List.cons_append, List.dropWhile_cons, hw c (by simp), if_true]
    exact ih (fun x hx => hw x (by simp [hx]))

/-- one letter read, one entry of the table -/
theorem scale_word (u : Units) (w s : List Char) (hw : Word w) (hs : Stops s) :
    ∃ r, scale u (w ++ s) = some (factor u w, r) ∧ r.dropWhile isAlpha = s := by
  have hsa : ∀ c, s.head? = some c → isAlpha c = false := fun c hc => (hs c hc).2.1
  cases w with
  | nil =>
    refine ⟨s, ?_, word_drop [] s (by simp) hsa⟩
    have hf : factor u [] = 1 := by cases u <;> rfl
    rw [hf]
    cases s with
    | nil => cases u <;> rfl
    | cons c r =>
      have h := hs c rfl
      have hne : ∀ x : Char, isAlpha x = true → c ≠ x := by
        intro x hx he; rw [he] at h; rw [hx] at h; exact absurd h.2.1 (by simp)
      have k : ∀ x : Char, isAlpha x = true → (c = x) = False := fun x hx => eq_false (hne x hx)
      have kp : (c = '%') = False := eq_false h.2.2.2
      simp only [List.nil_append, scale, skip1, List.mem_cons, List.not_mem_nil, or_false,
        k 'e' rfl, k 'E' rfl, k 'm' rfl, k 'M' rfl, k 'u' rfl, k 'U' rfl, k 'n' rfl, k 'N' rfl, k 'p' rfl, k 'P' rfl, k 'f' rfl, k 'F' rfl,
        k 'a' rfl, k 'A' rfl, k 'k' rfl, k 'K' rfl, k 'g' rfl, k 'G' rfl, k 't' rfl, k 'T' rfl, kp, if_false]
      cases u <;> rfl
  | cons c w =>
    obtain ⟨h1, h2⟩ := hw
    simp only [List.tail_cons] at h1
    have h2 := h2 c rfl
    have hdrop : ∀ l, (∀ x ∈ l, isAlpha x = true) → (l ++ s).dropWhile isAlpha = s := fun l hl => word_drop l s hl hsa
    by_cases hin : c ∈ ['M', 'm', 'u', 'U', 'n', 'N', 'p', 'P', 'f', 'F', 'a', 'A', 'k', 'K', 'g', 'G', 't', 'T', '%']
    · by_cases hsp : u = .spice ∧ (c = 'm' ∨ c = 'M')
      · obtain ⟨rfl, hc⟩ := hsp
        have hs1 : ∀ (x y : Char), isAlpha x = true → isAlpha y = true → skip1 [x, y] s = none := by
          intro x y hx hy
          cases s with
          | nil => rfl
          | cons d r =>
            have hd := (hs d rfl).2.1
            have e1 : d ≠ x := by intro he; rw [he, hx] at hd; cases hd
            have e2 : d ≠ y := by intro he; rw [he, hy] at hd; cases hd
            simp [skip1, e1, e2]
        cases w with
        | nil =>
          refine ⟨s, ?_, hdrop [] (by simp)⟩
          have q1 := hs1 'e' 'E' rfl rfl
          have q2 := hs1 'i' 'I' rfl rfl
          rcases hc with rfl | rfl
          · have e1 : skip1 ['e', 'E'] ('m' :: s) = none := rfl
            have e2 : skip1 ['m', 'M'] ('m' :: s) = some s := rfl
            simp only [List.cons_append, List.nil_append, scale, e1, e2, q1, q2, if_true]
            have : factor .spice ['m'] = 1 / 1000 := by decide +kernel
            rw [this]
          · have e1 : skip1 ['e', 'E'] ('M' :: s) = none := rfl
            have e2 : skip1 ['m', 'M'] ('M' :: s) = some s := rfl
            simp only [List.cons_append, List.nil_append, scale, e1, e2, q1, q2, if_true]
            have : factor .spice ['M'] = 1 / 1000 := by decide +kernel
            rw [this]
        | cons d w =>
          have hc2 : skip1 ['e', 'E'] (c :: d :: w ++ s) = none ∧ skip1 ['m', 'M'] (c :: d :: w ++ s) = some (d :: w ++ s) := by
            rcases hc with rfl | rfl <;> exact ⟨rfl, rfl⟩
          by_cases he : d = 'e' ∨ d = 'E'
          · refine ⟨w ++ s, ?_, hdrop w (fun x hx => h1 x (by simp [hx]))⟩
            have e3 : skip1 ['e', 'E'] (d :: w ++ s) = some (w ++ s) := by rcases he with rfl | rfl <;> rfl
            have hf : factor .spice (c :: d :: w) = 1000000 := by
              rcases hc with rfl | rfl <;> rcases he with rfl | rfl <;> simp [factor, table, List.isPrefixOf] <;> norm_num
            simp only [scale, hc2.1, hc2.2, e3, if_true, hf]
          · by_cases hi : d = 'i' ∨ d = 'I'
            · refine ⟨w ++ s, ?_, hdrop w (fun x hx => h1 x (by simp [hx]))⟩
              have e3 : skip1 ['e', 'E'] (d :: w ++ s) = none := by rcases hi with rfl | rfl <;> rfl
              have e4 : skip1 ['i', 'I'] (d :: w ++ s) = some (w ++ s) := by rcases hi with rfl | rfl <;> rfl
              have hf : factor .spice (c :: d :: w) = 254 / 10000000 := by
                rcases hc with rfl | rfl <;> rcases hi with rfl | rfl <;> simp [factor, table, List.isPrefixOf] <;> norm_num
              simp only [scale, hc2.1, hc2.2, e3, e4, if_true, hf]
            · refine ⟨d :: w ++ s, ?_, hdrop (d :: w) h1⟩
              push Not at he hi
              have e3 : skip1 ['e', 'E'] (d :: w ++ s) = none := by simp [skip1, he.1, he.2]
              have e4 : skip1 ['i', 'I'] (d :: w ++ s) = none := by simp [skip1, hi.1, hi.2]
              have hf : factor .spice (c :: d :: w) = 1 / 1000 := by
                rcases hc with rfl | rfl <;>
                simp [factor, table, List.isPrefixOf, he.1.symm, he.2.symm, hi.1.symm, hi.2.symm] <;> norm_num
              simp only [scale, hc2.1, hc2.2, e3, e4, if_true, hf]
      · refine ⟨w ++ s, ?_, hdrop w h1⟩
        simp only [List.mem_cons, List.not_mem_nil, or_false] at hin
        rcases hin with rfl | rfl | rfl | rfl | rfl | rfl | rfl | rfl | rfl | rfl | rfl | rfl | rfl | rfl | rfl | rfl | rfl | rfl | rfl <;>
          cases u <;>
          first
          | exact absurd ⟨rfl, Or.inl rfl⟩ hsp
          | exact absurd ⟨rfl, Or.inr rfl⟩ hsp
          | (simp [scale, skip1, factor, table, List.isPrefixOf]; done)
          | (simp [scale, skip1, factor, table, List.isPrefixOf]; norm_num)
    · refine ⟨c :: w ++ s, ?_, hdrop (c :: w) ?_⟩
      · simp only [List.mem_cons, List.not_mem_nil, or_false, not_or] at hin
        obtain ⟨a1, a2, a3, a4, a5, a6, a7, a8, a9, a10, a11, a12, a13, a14, a15, a16, a17, a18, a19⟩ := hin
        have ⟨e1, e2⟩ : c ≠ 'e' ∧ c ≠ 'E' := by
          rcases h2 with h2 | h2
          · exact h2.2
          · exact absurd h2 a19
        have hf : factor u (c :: w) = 1 := by
          cases u <;>
            simp [factor, table, List.isPrefixOf, Ne.symm a1, Ne.symm a2, Ne.symm a3, Ne.symm a4, Ne.symm a5, Ne.symm a6, Ne.symm a7,
              Ne.symm a8, Ne.symm a9, Ne.symm a10, Ne.symm a11, Ne.symm a12, Ne.symm a13, Ne.symm a14, Ne.symm a15, Ne.symm a16,
              Ne.symm a17, Ne.symm a18, Ne.symm a19]
        rw [hf]
        simp only [List.cons_append, scale, skip1, List.mem_cons, List.not_mem_nil, or_false, e1, e2, a1, a2, a3, a4, a5, a6, a7, a8, a9, a10,
          a11, a12, a13, a14, a15, a16, a17, a18, a19, if_false, or_self]
        cases u <;> rfl
      · intro x hx
        rcases List.mem_cons.mp hx with rfl | hx
        · rcases h2 with h2 | h2
          · exact h2.1
          · exfalso; apply hin; rw [h2]; simp
        · exact h1 x hx

theorem sgn_head (sg : Option Bool) (s : List Char) (c : Char) (h : (sgnText sg ++ s).head? = some c) :
    c = '-' ∨ c = '+' ∨ s.head? = some c := by
  cases sg with
  | none => right; right; simpa [sgnText] using h
  | some b => cases b <;> simp [sgnText] at h <;> simp [← h]

theorem alpha_not_digit (c : Char) (h : isAlpha c = true) : isDigit c = false := by
  unfold isAlpha at h
  unfold isDigit
  by_contra hc
  simp only [Bool.and_eq_true, decide_eq_true_eq, Bool.or_eq_true, Bool.not_eq_false] at h hc
  omega

theorem scale_suffix (u : Units) (n : Numeral) (hn : n.Wf) (s : List Char) (hs : Stops s) :
    ∃ r, scale u (n.suf.text ++ s) = some (n.suf.factor u, r) ∧ r.dropWhile isAlpha = s := by
  have hn := hn.suf
  cases hsuf : n.suf with
  | word w => rw [hsuf] at hn; exact scale_word u w s hn hs
  | exp up sg ds unit =>
    rw [hsuf] at hn
    obtain ⟨h0, h1, h2, h3⟩ := hn
    refine ⟨unit ++ s, ?_, word_drop unit s h3 (fun c hc => (hs c hc).2.1)⟩
    have hnd : NoDigit (unit ++ s) := by
      intro c hc
      cases unit with
      | nil => exact (hs c hc).1
      | cons x l =>
        simp at hc
        subst hc
        exact alpha_not_digit x (h3 x (by simp))
    have e1 : skip1 ['e', 'E'] ((Suffix.exp up sg ds unit).text ++ s) = some (sgnText sg ++ (ds.map dchar ++ (unit ++ s))) := by
      cases up <;> simp [Suffix.text, skip1]
    have e2 := sign_eq sg (ds.map dchar ++ (unit ++ s)) (by
      intro c hc
      cases ds with
      | nil => exact absurd rfl h0
      | cons d ds =>
        simp at hc
        subst hc
        exact ⟨dchar_ne d (h1 d (by simp)) '-' rfl, dchar_ne d (h1 d (by simp)) '+' rfl⟩)
    have e3 := expDigits_eq [] ds h1 (unit ++ s) hnd h2
    simp only [List.nil_append] at e3
    have e3 : expDigits 0 (ds.map dchar ++ (unit ++ s)) = some (value ds, unit ++ s) := e3
    unfold scale
    rw [e1]
    simp only [e2, e3, Option.map_some, Suffix.factor]
    by_cases hm : sg = some true <;> simp [hm]

/-! ### the theorem -/

theorem skipbl_blanks (b s : List Char) (hb : ∀ c ∈ b, isGraph c = false) (hs : ∀ c, s.head? = some c → isGraph c = true) :
    skipbl (b ++ s) = s := by
  induction b with
  | nil =>
    cases s with
    | nil => rfl
    | cons c r => simp [skipbl, hs c rfl]
  | cons c b ih =>
    simp only [List.cons_append, skipbl, hb c (by simp)]
    exact ih (fun x hx => hb x (by simp [hx]))

theorem float_graph (c : Char) (h : isFloat c = true) : isGraph c = true := by
  unfold isFloat isDigit at h
  unfold isGraph
  simp only [Bool.or_eq_true, Bool.and_eq_true, decide_eq_true_eq, beq_iff_eq] at h
  rcases h with ((h | h) | h) | h
  · simp; omega
  all_goals (subst h; rfl)

/-- first character of a numeral -/
theorem Numeral.head (n : Numeral) (hn : n.Wf) (s : List Char) : ∃ c r, n.text ++ s = c :: r ∧ isFloat c = true := by
  unfold Numeral.text
  have hd : ∀ d, d < 10 → isFloat (dchar d) = true := fun d h => by unfold isFloat; rw [isDigit_dchar d h]; rfl
  cases hs : n.sgn with
  | some b => cases b <;> simp [sgnText] <;> rfl
  | none =>
    cases hi : n.ip with
    | cons d l =>
      have := hd d (hn.ip d (by simp [hi]))
      simp [sgnText, this]
    | nil =>
      cases hdot : n.dot with
      | true => simp [sgnText]; rfl
      | false =>
        exfalso
        rcases hn.some_digit with h | h
        · exact h hi
        · exact h (hn.frac hdot)

/-- **C45**: a numeral is read as its value, blanks before it are skipped, and exactly its text is consumed, with blanks and one comma
after it. -/
theorem ctof_numeral (u : Units) (n : Numeral) (hn : n.Wf) (b s : List Char) (hb : ∀ c ∈ b, isGraph c = false) (hs : Stops s) :
    ctof u (b ++ n.text ++ s) = .num (n.value u) (skipcom s) := by
  obtain ⟨c, r, hcr, hc⟩ := n.head hn s
  obtain ⟨r', hr1, hr2⟩ := scale_suffix u n hn s hs
  have h0 : skipbl (b ++ n.text ++ s) = n.text ++ s := by
    rw [List.append_assoc]
    apply skipbl_blanks b _ hb
    intro x hx
    rw [hcr] at hx
    simp at hx
    subst hx
    exact float_graph c hc
  -- what follows the digits is not a digit
  have hsufnd : NoDigit (n.suf.text ++ s) ∧ (∀ x, (n.suf.text ++ s).head? = some x → x ≠ '-' ∧ x ≠ '+' ∧ x ≠ '.' ∨ n.suf.text = []) := by
    have := hn.suf
    cases hsuf : n.suf with
    | exp up sg ds unit =>
      cases up
      · exact ⟨by intro x hx; simp [Suffix.text] at hx; subst hx; rfl, by intro x hx; simp [Suffix.text] at hx; subst hx; left; decide⟩
      · exact ⟨by intro x hx; simp [Suffix.text] at hx; subst hx; rfl, by intro x hx; simp [Suffix.text] at hx; subst hx; left; decide⟩
    | word w =>
      rw [hsuf] at this
      cases w with
      | nil => exact ⟨fun x hx => (hs x hx).1, fun x hx => Or.inr rfl⟩
      | cons y w =>
        have hy := this.2 y rfl
        constructor
        · intro x hx
          simp [Suffix.text] at hx
          subst hx
          rcases hy with hy | hy
          · exact alpha_not_digit y hy.1
          · subst hy; rfl
        · intro x hx
          simp [Suffix.text] at hx
          subst hx
          left
          rcases hy with hy | hy
          · refine ⟨?_, ?_, ?_⟩ <;> (intro he; subst he; exact absurd hy.1 (by decide))
          · subst hy; decide
  have hdotstop : ∀ x, (n.suf.text ++ s).head? = some x → x ≠ '.' := by
    intro x hx
    rcases hsufnd.2 x hx with h | h
    · exact h.2.2
    · rw [h] at hx; exact (hs x hx).2.2.1
  -- the four pieces
  have hsign : sign (n.text ++ s) = (decide (n.sgn = some true),
      n.ip.map dchar ++ ((if n.dot then ['.'] else []) ++ (n.fp.map dchar ++ (n.suf.text ++ s)))) := by
    have : n.text ++ s = sgnText n.sgn ++ (n.ip.map dchar ++ ((if n.dot then ['.'] else []) ++ (n.fp.map dchar ++ (n.suf.text ++ s)))) := by
      unfold Numeral.text; simp [List.append_assoc]
    rw [this]
    apply sign_eq
    intro x hx
    cases hi : n.ip with
    | cons d l =>
      rw [hi] at hx
      simp at hx
      subst hx
      have := hn.ip d (by simp [hi])
      exact ⟨dchar_ne d this '-' rfl, dchar_ne d this '+' rfl⟩
    | nil =>
      rw [hi] at hx
      cases hdot : n.dot with
      | true => rw [hdot] at hx; simp at hx; subst hx; decide
      | false =>
        exfalso
        rcases hn.some_digit with h | h
        · exact h hi
        · exact h (hn.frac hdot)
  have hfnd : NoDigit ((if n.dot then ['.'] else []) ++ (n.fp.map dchar ++ (n.suf.text ++ s))) := by
    intro x hx
    cases hdot : n.dot with
    | true => rw [hdot] at hx; simp at hx; subst hx; rfl
    | false =>
      rw [hdot, hn.frac hdot] at hx
      exact hsufnd.1 x (by simpa using hx)
  have hdig := digits_eq 0 n.ip hn.ip _ hfnd
  have hdot : (skip1 ['.'] ((if n.dot then ['.'] else []) ++ (n.fp.map dchar ++ (n.suf.text ++ s)))).getD
      ((if n.dot then ['.'] else []) ++ (n.fp.map dchar ++ (n.suf.text ++ s))) = n.fp.map dchar ++ (n.suf.text ++ s) := by
    cases hd : n.dot with
    | true => simp [skip1]
    | false =>
      simp only [Bool.false_eq_true, if_false, List.nil_append, hn.frac hd, List.map_nil]
      generalize n.suf.text ++ s = l at hdotstop
      cases l with
      | nil => rfl
      | cons x l => have := hdotstop x rfl; simp [skip1, this]
  have hfrac := fracDigits_eq (value n.ip) 1 n.fp hn.fp _ hsufnd.1
  simp only [zero_mul, zero_add] at hdig
  unfold ctof
  simp only [h0]
  rw [hcr]
  simp only [hc, if_true]
  rw [← hcr]
  simp only [hsign, hdig, hdot, hfrac, hr1, hr2]
  congr 1
  unfold Numeral.value
  rw [value_append]
  push_cast
  by_cases hm : n.sgn = some true <;> simp [hm] <;> ring

/-- **C45, no number**: text that does not begin with a sign, a digit or a point is not taken for a number; only blanks and a comma are
skipped. -/
theorem ctof_not_number (u : Units) (s : List Char) (h : ∀ c, (skipbl s).head? = some c → isFloat c = false) :
    ctof u s = .none (skipcom (skipbl s)) := by
  unfold ctof
  cases hs : skipbl s with
  | nil => rfl
  | cons c r =>
    have := h c (by rw [hs]; rfl)
    simp [this]

/-- `-12.5kOhm` -/
def demoNumeral : Numeral := ⟨some true, [1, 2], true, [5], .word ['k', 'O', 'h', 'm']⟩
theorem demo_wf : demoNumeral.Wf := ⟨by decide, by decide, by decide, by decide, by constructor <;> decide⟩
example : demoNumeral.text = "-12.5kOhm".toList ∧ demoNumeral.value .si = -12500 := by decide +kernel
example : ctof .si " -12.5kOhm , x".toList = .num (-12500) ['x'] := by decide +kernel
/-- `1e-3V` -/
example : (⟨none, [1], false, [], .exp false (some true) [3] ['V']⟩ : Numeral).Wf :=
  ⟨by decide, by decide, by decide, by decide, by decide, by decide, by decide +kernel, by decide⟩

/-- **C45 is false**: a sign or a point alone, or followed by a word, is taken for the number 0, and the word is eaten … -/
theorem ctof_sign_wrong : ctof .si ['-', 'x', '+', '1'] = .num 0 ['+', '1'] ∧ ctof .si ['.', ' ', 'a'] = .num 0 ['a'] := by decide +kernel

/-- … where there is no number, a comma is still eaten, so that the cursor does not stay … -/
theorem ctof_comma_wrong : ctof .si [',', '5'] = .none ['5'] := by decide +kernel

/-- … an exponent of eleven digits overflows `int` … -/
theorem ctof_exponent_ub : ctof .si "0e99999999999".toList = .ub := by decide +kernel

/-- … and in spice units every word beginning with "me" is a million, every word beginning with "mi" a mil. -/
theorem ctof_meter_wrong : ctof .spice "10meter".toList = .num 10000000 [] ∧ ctof .spice "10minutes".toList = .num (254 / 1000000) [] := by decide +kernel

/-! ### integers -/

theorem intDigits_eq (pre ds : List ℕ) (hd : ∀ d ∈ ds, d < 10) (s : List Char) (h : NoDigit s) (hm : value (pre ++ ds) ≤ intMax) :
    intDigits (value pre) (ds.map dchar ++ s) = some (value (pre ++ ds), s) := by
  induction ds generalizing pre with
  | nil =>
    simp only [List.map_nil, List.nil_append, List.append_nil]
    cases s with
    | nil => rfl
    | cons c r => simp [intDigits, h c rfl]
  | cons d ds ih =>
    have hd0 := hd d (by simp)
    simp only [List.map_cons, List.cons_append, intDigits, isDigit_dchar d hd0, if_true, digitVal_dchar d hd0]
    have e : pre ++ d :: ds = (pre ++ [d]) ++ ds := by simp
    rw [e] at hm ⊢
    rw [← value_snoc]
    rw [if_neg (not_lt.mpr ((value_le_append _ _).trans hm))]
    exact ih (pre ++ [d]) (fun x hx => hd x (by simp [hx])) hm

theorem skipbl_length (s : List Char) : (skipbl s).length ≤ s.length := by
  induction s with
  | nil => simp [skipbl]
  | cons c r ih =>
    unfold skipbl
    split
    · exact le_rfl
    · simp; omega

theorem skipcom_length (s : List Char) : (skipcom s).length ≤ s.length := by
  unfold skipcom
  have h := skipbl_length s
  split
  · rename_i r hr
    have := skipbl_length r
    rw [hr] at h
    simp at h
    omega
  · exact h

/-- **C45, integers**: an integer up to `INT_MAX` is read as its value; point and letters are left for the next token -/
theorem ctoi_numeral (sg : Option Bool) (ds : List ℕ) (h0 : ds ≠ []) (hd : ∀ d ∈ ds, d < 10) (hm : value ds ≤ intMax) (b s : List Char)
    (hb : ∀ c ∈ b, isGraph c = false) (hs : NoDigit s) :
    ctoi (b ++ (sgnText sg ++ ds.map dchar ++ s)) = some (if sg = some true then -(value ds : ℤ) else (value ds : ℤ), true, skipcom s) := by
  obtain ⟨d, l, rfl⟩ : ∃ d l, ds = d :: l := by cases ds with | nil => exact absurd rfl h0 | cons d l => exact ⟨d, l, rfl⟩
  have hfd : isFloat (dchar d) = true := by unfold isFloat; rw [isDigit_dchar d (hd d (by simp))]; rfl
  have h1 : skipbl (b ++ (sgnText sg ++ (d :: l).map dchar ++ s)) = sgnText sg ++ (d :: l).map dchar ++ s := by
    apply skipbl_blanks b _ hb
    intro x hx
    apply float_graph
    rw [List.append_assoc] at hx
    rcases sgn_head sg _ x hx with rfl | rfl | hx
    · rfl
    · rfl
    · simp at hx; rw [← hx]; exact hfd
  have h2 := sign_eq sg ((d :: l).map dchar ++ s) (by
    intro x hx
    simp at hx
    subst hx
    exact ⟨dchar_ne d (hd d (by simp)) '-' rfl, dchar_ne d (hd d (by simp)) '+' rfl⟩)
  have h3 := intDigits_eq [] (d :: l) hd s hs hm
  simp only [List.nil_append] at h3
  have h3 : intDigits 0 ((d :: l).map dchar ++ s) = some (value (d :: l), s) := h3
  have hlen : (skipcom s).length < (sgnText sg ++ (d :: l).map dchar ++ s).length := by
    have := skipcom_length s
    simp only [List.length_append, List.length_map, List.length_cons]
    omega
  unfold ctoi
  rw [h1, List.append_assoc]
  simp only [h2, h3]
  rw [List.append_assoc] at hlen
  simp only [hlen, decide_true]
  by_cases hg : sg = some true <;> simp [hg]

example : ctoi " -42.5".toList = some (-42, true, ['.', '5']) := by decide +kernel

/-- a sign alone passes for the integer 0 -/
theorem ctoi_sign_wrong : ctoi "+x".toList = some (0, true, ['x']) := by decide +kernel

end Gnucap.Num
