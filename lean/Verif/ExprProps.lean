import Verif.ExprFuel

/-!
# Expressions are read with the usual precedence and associativity

Specification: expression trees `Ex`, their reverse Polish form `rpn` (what a stack machine evaluates in the order given by the tree), and
the texts `Text p e t` of a tree: level 0 has the conditional, 1 has `||`, 2 has `&&`, 3 the comparisons, 4 `+ -`, 5 `* / %`, 6 one sign,
7 atoms, calls, arrays and parentheses.  A binary operator of level `p` has a left operand of level `p` and a right operand of level
`p + 1`: it associates to the left and binds less tightly than the operators of higher levels.  Blanks are free between tokens.
-/
namespace Gnucap.Expr
open Gnucap.Scan Gnucap.Num

/-! ## Specification -/

mutual
inductive Ex where
  | name (s : List Char)
  | const (v : Base.Val)
  | call (f : List Char) (args : Args)
  | arr (args : Args)
  | un (op : List Char) (e : Ex)
  | bin (op : List Char) (a b : Ex)
  | tern (c t f : Ex)

inductive Args where
  | nil
  | cons (e : Ex) (r : Args)
end

mutual
/-- the tokens of a tree, in the order of evaluation -/
def rpn : Ex → List Tok
  | .name s => [.sym s]
  | .const v => [.const v]
  | .call f a => .stop ['('] :: rpnArgs a ++ [.parlist, .sym f]
  | .arr a => .stop ['\'', '{'] :: rpnArgs a ++ [.array]
  | .un op e => rpn e ++ [.un op]
  | .bin op a b => rpn a ++ rpn b ++ [.bin op]
  | .tern c t f => rpn c ++ [.tern (rpn t) (rpn f)]

def rpnArgs : Args → List Tok
  | .nil => []
  | .cons e r => rpn e ++ rpnArgs r
end

def letter (c : Char) : Bool := (65 ≤ c.toNat && c.toNat ≤ 90) || (97 ≤ c.toNat && c.toNat ≤ 122)
def identHead (c : Char) : Bool := letter c || c == '_' || c == '$'
def identChar (c : Char) : Bool := identHead c || isPfloat c

/-- names and numbers -/
inductive IsName : List Char → Prop
  | ident (c : Char) (s : List Char) (hc : identHead c = true) (hs : ∀ d ∈ s, identChar d = true) : IsName (c :: s)
  | num (d suf : List Char) (hd : ∀ c ∈ d, isPfloat c = true) (hne : d ≠ []) (hs : ∀ c ∈ suf, letter c = true)
      (he : suf.head? ≠ some 'e') (hE : suf.head? ≠ some 'E') : IsName (d ++ suf)
  | numexp (d : List Char) (e : Char) (sg x suf : List Char) (hd : ∀ c ∈ d, isPfloat c = true) (hne : d ≠ [])
      (he : e = 'e' ∨ e = 'E') (hsg : sg = [] ∨ sg = ['+'] ∨ sg = ['-']) (hx : ∀ c ∈ x, isDigit c = true) (hxne : x ≠ [])
      (hs : ∀ c ∈ suf, letter c = true) : IsName (d ++ e :: (sg ++ (x ++ suf)))

/-- what may stand between quotes -/
inductive IsStr : List Char → Prop
  | nil : IsStr []
  | char (c : Char) (s : List Char) (h1 : c ≠ '"') (h2 : c ≠ '\\') (h : IsStr s) : IsStr (c :: s)
  | esc (c : Char) (s : List Char) (h : IsStr s) : IsStr ('\\' :: c :: s)

/-- the binary operators -/
def opLevel : List Char → Option ℕ
  | ['|', '|'] => some 1
  | ['&', '&'] => some 2
  | ['<'] | ['>'] | ['<', '='] | ['>', '='] | ['=', '='] | ['!', '='] => some 3
  | ['+'] | ['-'] => some 4
  | ['*'] | ['/'] | ['%'] => some 5
  | _ => none

/-- blank space -/
abbrev Blank (s : List Char) : Prop := ∀ c ∈ s, isSpace c = true

mutual
/-- `t` is a text of the tree `e`, of level `p` or tighter -/
inductive Text : ℕ → Ex → List Char → Prop
  | up (p : ℕ) (e : Ex) (t : List Char) (hp : p < 7) (h : Text (p + 1) e t) : Text p e t
  | bin (p : ℕ) (op : List Char) (a b : Ex) (ta tb b1 b2 : List Char) (hop : opLevel op = some p) (ha : Text p a ta)
      (hb : Text (p + 1) b tb) (h1 : Blank b1) (h2 : Blank b2) : Text p (.bin op a b) (ta ++ (b1 ++ (op ++ (b2 ++ tb))))
  | tern (c t f : Ex) (tc tt tf b1 b2 b3 b4 : List Char) (hc : Text 1 c tc) (ht : Text 0 t tt) (hf : Text 0 f tf)
      (h1 : Blank b1) (h2 : Blank b2) (h3 : Blank b3) (h4 : Blank b4) :
      Text 0 (.tern c t f) (tc ++ (b1 ++ '?' :: (b2 ++ (tt ++ (b3 ++ ':' :: (b4 ++ tf))))))
  | un (op : Char) (e : Ex) (t b : List Char) (hop : op = '-' ∨ op = '+' ∨ op = '!') (h : Text 7 e t) (hb : Blank b) :
      Text 6 (.un [op] e) (op :: (b ++ t))
  | paren (e : Ex) (t b1 b2 : List Char) (h : Text 0 e t) (h1 : Blank b1) (h2 : Blank b2) :
      Text 7 e ('(' :: (b1 ++ (t ++ (b2 ++ [')']))))
  | name (s : List Char) (h : IsName s) : Text 7 (.name s) s
  | str (s : List Char) (h : IsStr s) : Text 7 (.const (.vstr s)) ('"' :: (s ++ ['"']))
  | call0 (f b b1 : List Char) (h : IsName f) (hb : Blank b) (h1 : Blank b1) :
      Text 7 (.call f .nil) (f ++ (b ++ '(' :: (b1 ++ [')'])))
  | call (f b b1 b2 : List Char) (a : Args) (t : List Char) (h : IsName f) (ha : TextArgs a t) (hb : Blank b) (h1 : Blank b1)
      (h2 : Blank b2) : Text 7 (.call f a) (f ++ (b ++ '(' :: (b1 ++ (t ++ (b2 ++ [')'])))))
  | arr0 (b b1 : List Char) (hb : Blank b) (h1 : Blank b1) : Text 7 (.arr .nil) ('\'' :: (b ++ '{' :: (b1 ++ ['}'])))
  | arr (b b1 b2 : List Char) (a : Args) (t : List Char) (ha : TextArgs a t) (hb : Blank b) (h1 : Blank b1) (h2 : Blank b2) :
      Text 7 (.arr a) ('\'' :: (b ++ '{' :: (b1 ++ (t ++ (b2 ++ ['}'])))))

/-- a list of arguments, at least one -/
inductive TextArgs : Args → List Char → Prop
  | one (e : Ex) (t : List Char) (h : Text 0 e t) : TextArgs (.cons e .nil) t
  | cons (e : Ex) (a : Args) (t u b1 b2 : List Char) (h : Text 0 e t) (ha : TextArgs a u) (h1 : Blank b1) (h2 : Blank b2) :
      TextArgs (.cons e a) (t ++ (b1 ++ ',' :: (b2 ++ u)))
end

/-- the text after an expression does not go on with the name that ends it -/
def StopsName (s : List Char) : Prop := ∀ c, s.head? = some c → isAlpha c = false ∧ isPfloat c = false ∧ c ≠ '_' ∧ c ≠ '$' ∧ c ≠ '['

/-- no operator of level `q` at the cursor -/
def noOp (q : ℕ) (s : List Char) : Prop :=
  match q with
  | 0 => s.head? ≠ some '?'
  | 1 => orMatch s = none
  | 2 => matchAlts s altsAnd s = none
  | 3 => matchAlts s altsLogical s = none
  | 4 => matchAlts s altsAdd s = none
  | 5 => matchAlts s altsTerm s = none
  | _ => True

/-- the text after an expression of level `p` does not continue it -/
structure Fol (p : ℕ) (s : List Char) : Prop where
  name : StopsName s
  paren : (skipbl s).head? ≠ some '('
  op : ∀ q, p ≤ q → noOp q (skipbl s)

/-! ## Characters -/

/-- the characters a text of level 7 may begin with -/
def atomHead (c : Char) : Bool := identChar c || c == '(' || c == '"' || c == '\''
def anyHead (c : Char) : Bool := atomHead c || c == '-' || c == '+' || c == '!'

theorem letter_alpha (c : Char) (h : letter c = true) : isAlpha c = true := by
  simp only [letter, isAlpha, Bool.or_eq_true, Bool.and_eq_true, decide_eq_true_eq] at h ⊢
  omega

theorem ne_of_nat (c d : Char) (h : c.toNat ≠ d.toNat) : c ≠ d := fun e => h (by rw [e])

theorem identChar_range (c : Char) (h : identChar c = true) :
    (65 ≤ c.toNat ∧ c.toNat ≤ 90) ∨ (97 ≤ c.toNat ∧ c.toNat ≤ 122) ∨ (48 ≤ c.toNat ∧ c.toNat ≤ 57) ∨ c.toNat = 46 ∨ c.toNat = 95 ∨ c.toNat = 36 := by
  simp only [identChar, identHead, letter, isPfloat, isDigit, Bool.or_eq_true, Bool.and_eq_true, decide_eq_true_eq, beq_iff_eq] at h
  rcases h with ((h | rfl) | rfl) | h | rfl
  · omega
  · decide
  · decide
  · omega
  · decide

theorem anyHead_range (c : Char) (h : anyHead c = true) :
    (65 ≤ c.toNat ∧ c.toNat ≤ 90) ∨ (97 ≤ c.toNat ∧ c.toNat ≤ 122) ∨ (48 ≤ c.toNat ∧ c.toNat ≤ 57) ∨ c.toNat = 46 ∨ c.toNat = 95 ∨ c.toNat = 36
      ∨ c.toNat = 40 ∨ c.toNat = 34 ∨ c.toNat = 39 ∨ c.toNat = 45 ∨ c.toNat = 43 ∨ c.toNat = 33 := by
  simp only [anyHead, atomHead, Bool.or_eq_true, beq_iff_eq] at h
  rcases h with (((((h | rfl) | rfl) | rfl) | rfl) | rfl) | rfl
  · have := identChar_range c h; omega
  all_goals decide

theorem anyHead_graph (c : Char) (h : anyHead c = true) : isGraph c = true := by
  have := anyHead_range c h
  simp only [isGraph, Bool.and_eq_true, decide_eq_true_eq]; omega

/-- the first character of `s` is one of those -/
def HeadIn (f : Char → Bool) (s : List Char) : Prop := ∃ c r, s = c :: r ∧ f c = true

theorem HeadIn.append {f : Char → Bool} {s : List Char} (h : HeadIn f s) (u : List Char) : HeadIn f (s ++ u) := by
  obtain ⟨c, r, rfl, hc⟩ := h
  exact ⟨c, r ++ u, rfl, hc⟩

theorem skipbl_head {s : List Char} (h : HeadIn anyHead s) : skipbl s = s := by
  obtain ⟨c, r, rfl, hc⟩ := h
  simp only [skipbl, anyHead_graph c hc, if_true]

theorem space_graph (c : Char) (h : isSpace c = true) : isGraph c = false := by
  simp only [isSpace, isGraph, Bool.or_eq_true, Bool.and_eq_true, Bool.and_eq_false_iff, decide_eq_true_eq, decide_eq_false_iff_not,
    beq_iff_eq] at *
  omega

theorem skipbl_blank (b s : List Char) (h : Blank b) : skipbl (b ++ s) = skipbl s := by
  induction b with
  | nil => rfl
  | cons c b ih =>
    simp only [List.cons_append, skipbl, space_graph c (h c (by simp)), Bool.false_eq_true, if_false]
    exact ih fun d hd => h d (by simp [hd])

theorem skipbl_idem (s : List Char) : skipbl (skipbl s) = skipbl s := by
  induction s with
  | nil => rfl
  | cons c r ih =>
    simp only [skipbl]
    split
    · rename_i h; simp only [skipbl, h, if_true]
    · exact ih

theorem skipcom_text (b s : List Char) (hb : Blank b) (h : HeadIn anyHead s) : skipcom (b ++ s) = s := by
  unfold skipcom
  rw [skipbl_blank b s hb, skipbl_head h]
  obtain ⟨c, r, rfl, hc⟩ := h
  have := anyHead_range c hc
  split
  · rename_i e
    simp only [List.cons.injEq] at e
    obtain ⟨rfl, -⟩ := e
    exact absurd this (by decide)
  · rfl

theorem skip1b_hit (c : Char) (b s : List Char) (hb : Blank b) (hc : isGraph c = true) : skip1b c (b ++ c :: s) = (true, skipbl s) := by
  unfold skip1b
  rw [skipbl_blank b _ hb]
  simp only [skipbl, hc, if_true]

theorem skip1b_miss (c : Char) (s : List Char) (h : (skipbl s).head? ≠ some c) : skip1b c s = (false, skipbl s) := by
  unfold skip1b
  cases e : skipbl s with
  | nil => rfl
  | cons d r =>
    simp only
    rw [if_neg]
    rintro rfl
    rw [e] at h
    exact h rfl

theorem head_ne {s : List Char} {c : Char} (h : HeadIn anyHead s) (hc : anyHead c = false) : s.head? ≠ some c := by
  obtain ⟨d, r, rfl, hd⟩ := h
  simp only [List.head?_cons, ne_eq, Option.some.injEq]
  rintro rfl
  rw [hd] at hc; cases hc

/-! ## Names -/

theorem span_take (f : Char → Bool) (s rest : List Char) (hs : ∀ c ∈ s, f c = true) (hr : ∀ c, rest.head? = some c → f c = false) :
    (s ++ rest).takeWhile f = s ∧ (s ++ rest).dropWhile f = rest := by
  induction s with
  | nil =>
    cases rest with
    | nil => exact ⟨rfl, rfl⟩
    | cons c r => simp [hr c rfl]
  | cons c s ih =>
    have hc := hs c (by simp)
    have := ih fun d hd => hs d (by simp [hd])
    simp [hc, this.1, this.2]

theorem nameLoop_ident (b : ℕ) (s rest : List Char) (hs : ∀ c ∈ s, identChar c = true) (hr : StopsName rest)
    (h2 : b = 0) : nameLoop b (s ++ rest) = (s, rest) := by
  induction s with
  | nil =>
    cases rest with
    | nil => rfl
    | cons c r =>
      obtain ⟨h1, h3, h4, h5, h6⟩ := hr c rfl
      simp [nameLoop, h1, h3, h4, h5, h6, h2]
  | cons c s ih =>
    have hc := hs c (by simp)
    have := ih fun d hd => hs d (by simp [hd])
    simp only [List.cons_append, nameLoop]
    rw [if_pos, this]
    simp only [identChar, identHead, Bool.or_eq_true] at hc ⊢
    rcases hc with ((h | h) | h) | h
    · exact Or.inl (Or.inl (Or.inl (letter_alpha c h)))
    · exact Or.inl (Or.inr h)
    · exact Or.inr h
    · exact Or.inl (Or.inl (Or.inr h))

theorem name_head (s : List Char) (h : IsName s) : HeadIn identChar s := by
  cases h with
  | ident c s hc hs => exact ⟨c, s, rfl, by simp only [identChar, hc, Bool.true_or]⟩
  | num d suf hd hne hs he hE =>
    cases d with
    | nil => exact absurd rfl hne
    | cons c d => exact ⟨c, d ++ suf, rfl, by simp only [identChar, hd c (by simp), Bool.or_true]⟩
  | numexp d e sg x suf hd hne he hsg hx hxne hs =>
    cases d with
    | nil => exact absurd rfl hne
    | cons c d => exact ⟨c, _, rfl, by simp only [identChar, hd c (by simp), Bool.or_true]⟩

theorem alpha_not_pfloat (c : Char) (h : letter c = true) : isPfloat c = false := by
  by_contra hn
  simp only [Bool.not_eq_false] at hn
  simp only [letter, isPfloat, isDigit, Bool.or_eq_true, Bool.and_eq_true, decide_eq_true_eq, beq_iff_eq] at h hn
  rcases hn with hn | rfl
  · omega
  · revert h; decide

theorem head_append_ne (suf rest : List Char) (f : Char → Bool) (hs : ∀ c ∈ suf, f c = false) (hr : ∀ c, rest.head? = some c → f c = false) :
    ∀ c, (suf ++ rest).head? = some c → f c = false := by
  intro c hc
  cases suf with
  | nil => exact hr c hc
  | cons d s => simp only [List.cons_append, List.head?_cons, Option.some.injEq] at hc; subst hc; exact hs d (by simp)

theorem digit_not_alpha (c : Char) (h : isDigit c = true) : letter c = false := by
  simp only [letter, isDigit, Bool.or_eq_false_iff, Bool.and_eq_true, Bool.and_eq_false_iff, decide_eq_true_eq, decide_eq_false_iff_not] at *
  omega

/-- a name is read up to its end -/
theorem nameString_spec (s rest : List Char) (h : IsName s) (hr : StopsName rest) : nameString (s ++ rest) = (s, skipbl rest) := by
  have hh := name_head s h
  have hsk : skipbl (s ++ rest) = s ++ rest := by
    obtain ⟨c, r, rfl, hc⟩ := hh
    exact skipbl_head ⟨c, r ++ rest, rfl, by simp only [anyHead, atomHead, hc, Bool.true_or]⟩
  have hrp : ∀ c, rest.head? = some c → isPfloat c = false := fun c hc => (hr c hc).2.1
  have hra : ∀ c, rest.head? = some c → isAlpha c = false := fun c hc => (hr c hc).1
  have hrd : ∀ c, rest.head? = some c → isDigit c = false := fun c hc => by
    have := hrp c hc
    simp only [isPfloat, Bool.or_eq_false_iff] at this
    exact this.1
  cases h with
  | ident c s hc hs =>
    simp only [nameString, hsk]
    rw [List.cons_append]
    simp only
    have hp : isPfloat c = false := by
      simp only [identHead, Bool.or_eq_true, beq_iff_eq] at hc
      rcases hc with (h | rfl) | rfl
      · exact alpha_not_pfloat c h
      · decide
      · decide
    rw [hp]
    simp only [Bool.false_eq_true, if_false]
    rw [← List.cons_append, nameLoop_ident 0 (c :: s) rest _ hr rfl]
    intro d hd
    rcases List.mem_cons.1 hd with rfl | hd
    · simp only [identChar, hc, Bool.true_or]
    · exact hs d hd
  | num d suf hd hne hs he hE =>
    cases d with
    | nil => exact absurd rfl hne
    | cons c d =>
      have h1 := span_take isPfloat (c :: d) (suf ++ rest) hd (head_append_ne suf rest _ (fun x hx => alpha_not_pfloat x (hs x hx)) hrp)
      have h2 := span_take isAlpha suf rest (fun x hx => letter_alpha x (hs x hx)) hra
      have h3 : expPart (suf ++ rest) = ([], suf ++ rest) := by
        cases suf with
        | nil =>
          cases rest with
          | nil => rfl
          | cons x r =>
            have := hra x rfl
            have e1 : (x == 'e') = false := by
              by_contra hn; simp only [Bool.not_eq_false, beq_iff_eq] at hn; subst hn; revert this; decide
            have e2 : (x == 'E') = false := by
              by_contra hn; simp only [Bool.not_eq_false, beq_iff_eq] at hn; subst hn; revert this; decide
            simp only [List.nil_append, expPart, e1, e2, Bool.or_false, Bool.false_eq_true, if_false]
        | cons x r =>
          simp only [List.head?_cons, ne_eq, Option.some.injEq] at he hE
          simp [expPart, he, hE]
      rw [List.append_assoc] at hsk ⊢
      simp only [nameString, hsk]
      rw [List.cons_append]
      simp only [hd c (by simp), if_true]
      rw [← List.cons_append, h1.1, h1.2, h3]
      simp only [h2.1, h2.2, List.append_nil]
  | numexp d e sg x suf hd hne he hsg hx hxne hs =>
    cases d with
    | nil => exact absurd rfl hne
    | cons c d =>
      have hep : isPfloat e = false := by rcases he with rfl | rfl <;> decide
      have hee : (e == 'e' || e == 'E') = true := by rcases he with rfl | rfl <;> decide
      have h1 := span_take isPfloat (c :: d) (e :: (sg ++ (x ++ (suf ++ rest)))) hd (by intro y hy; cases hy; exact hep)
      have h2 := span_take isAlpha suf rest (fun x hx => letter_alpha x (hs x hx)) hra
      have h4 := span_take isDigit x (suf ++ rest) hx (head_append_ne suf rest _ (fun y hy => by
        have := alpha_not_pfloat y (hs y hy)
        simp only [isPfloat, Bool.or_eq_false_iff] at this
        exact this.1) hrd)
      have h3 : expPart (e :: (sg ++ (x ++ (suf ++ rest)))) = (e :: (sg ++ x), suf ++ rest) := by
        rcases hsg with rfl | rfl | rfl
        · cases x with
          | nil => exact absurd rfl hxne
          | cons y x =>
            have hy := hx y (by simp)
            have e1 : (y == '+') = false := by
              by_contra hn; simp only [Bool.not_eq_false, beq_iff_eq] at hn; subst hn; revert hy; decide
            have e2 : (y == '-') = false := by
              by_contra hn; simp only [Bool.not_eq_false, beq_iff_eq] at hn; subst hn; revert hy; decide
            simp only [expPart, hee, if_true, List.nil_append]
            rw [List.cons_append]
            simp only [e1, e2, Bool.or_false, Bool.false_eq_true, if_false]
            rw [← List.cons_append, h4.1, h4.2]
        · simp only [expPart, hee, if_true, List.cons_append, List.nil_append, beq_self_eq_true, Bool.true_or, h4.1, h4.2]
        · simp only [expPart, hee, if_true, List.cons_append, List.nil_append, beq_self_eq_true, Bool.or_true, h4.1, h4.2]
      have ea : (c :: d) ++ e :: (sg ++ (x ++ suf)) ++ rest = (c :: d) ++ e :: (sg ++ (x ++ (suf ++ rest))) := by simp
      rw [ea] at hsk ⊢
      simp only [nameString, hsk]
      rw [List.cons_append]
      simp only [hd c (by simp), if_true]
      rw [← List.cons_append, h1.1, h1.2, h3]
      simp only [h2.1, h2.2]
      simp

theorem quoted_spec (s rest : List Char) (h : IsStr s) : quoted (s ++ '"' :: rest) = some (s, rest) := by
  induction h with
  | nil => simp [quoted]
  | char c s h1 h2 h ih =>
    rw [List.cons_append, quoted]
    · rw [ih]; rfl
    · intro r e; exact absurd e h2
    · intro r e; exact absurd e h2
    · exact h1
  | esc c s h ih =>
    by_cases h1 : c = '"'
    · subst h1; simp only [List.cons_append, quoted, ih, Option.map_some]
    · by_cases h2 : c = '\\'
      · subst h2; simp only [List.cons_append, quoted, ih, Option.map_some]
      · have e1 : quoted (c :: (s ++ '"' :: rest)) = some (c :: s, rest) := by
          rw [quoted]
          · rw [ih]; rfl
          · intro r e; exact absurd e h2
          · intro r e; exact absurd e h2
          · exact h1
        rw [List.cons_append, List.cons_append, quoted]
        · rw [e1]; rfl
        · intro r _ e; simp only [List.cons.injEq] at e; exact absurd e.1 h1
        · intro r _ e; simp only [List.cons.injEq] at e; exact absurd e.1 h2
        · decide

/-! ## Operators -/

theorem umatchName_bars (ci : Bool) (alts : List (List Char)) (hne : alts ≠ []) (h : ∀ a ∈ alts, ∀ c ∈ a, plain c = true)
    (s : List Char) (hs : skipbl s = s) :
    umatchName ci (bars alts) s = (matchAlts s alts s).map fun r => (s.take (s.length - r.length), skipcom r) := by
  unfold umatchName
  rw [hs, umatchGo_plain ci alts hne h]
  cases matchAlts s alts s <;> rfl

theorem umatchName_or (ci : Bool) (s : List Char) (hs : skipbl s = s) :
    umatchName ci patOr s = (orMatch s).map fun r => (s.take (s.length - r.length), skipcom r) := by
  unfold umatchName
  rw [hs, umatchGo_or]
  cases orMatch s <;> rfl

/-- the reading function of a level, and the function that reads what follows -/
def lv (ci : Bool) : ℕ → ℕ → St → PRes St
  | 0 => expression ci
  | 1 => expression ci
  | 2 => andarg ci
  | 3 => logical ci
  | 4 => addexp ci
  | 5 => term ci
  | 6 => factor ci
  | _ => operand ci

def tl (ci : Bool) : ℕ → ℕ → St → PRes St
  | 1 => exptail ci
  | 2 => andtail ci
  | 3 => logicaltail ci
  | 4 => addexptail ci
  | 5 => termtail ci
  | _ => fun _ st => .ok st

def lvAlts : ℕ → List (List Char)
  | 2 => altsAnd
  | 3 => altsLogical
  | 4 => altsAdd
  | 5 => altsTerm
  | _ => []

/-- the match of the operators of a level at the cursor -/
def lvMatch (p : ℕ) (s : List Char) : Option (List Char) := if p = 1 then orMatch s else matchAlts s (lvAlts p) s

def lvPat : ℕ → List Char
  | 1 => patOr
  | 2 => patAnd
  | 3 => patLogical
  | 4 => patAdd
  | _ => patTerm

theorem lvPat_match (ci : Bool) (p : ℕ) (h1 : 1 ≤ p) (h5 : p ≤ 5) (s : List Char) (hs : skipbl s = s) :
    umatchName ci (lvPat p) s = (lvMatch p s).map fun r => (s.take (s.length - r.length), skipcom r) := by
  obtain ⟨-, ht, ha, hl, hn, -⟩ := pats
  have : p = 1 ∨ p = 2 ∨ p = 3 ∨ p = 4 ∨ p = 5 := by omega
  rcases this with rfl | rfl | rfl | rfl | rfl
  · exact umatchName_or ci s hs
  · simp only [lvPat]; rw [hn]; exact umatchName_bars ci altsAnd (by decide) (by decide) s hs
  · simp only [lvPat]; rw [hl]; exact umatchName_bars ci altsLogical (by decide) (by decide) s hs
  · simp only [lvPat]; rw [ha]; exact umatchName_bars ci altsAdd (by decide) (by decide) s hs
  · simp only [lvPat]; rw [ht]; exact umatchName_bars ci altsTerm (by decide) (by decide) s hs

theorem noOp_match (p : ℕ) (h1 : 1 ≤ p) (h5 : p ≤ 5) (s : List Char) : noOp p s ↔ lvMatch p s = none := by
  have : p = 1 ∨ p = 2 ∨ p = 3 ∨ p = 4 ∨ p = 5 := by omega
  rcases this with rfl | rfl | rfl | rfl | rfl <;> simp [noOp, lvMatch, lvAlts]

theorem lv_succ (ci : Bool) (p : ℕ) (h1 : 1 ≤ p) (h5 : p ≤ 5) (n : ℕ) (st : St) :
    lv ci p (n + 1) st = (lv ci (p + 1) n st).bind (tl ci p n) := by
  have : p = 1 ∨ p = 2 ∨ p = 3 ∨ p = 4 ∨ p = 5 := by omega
  rcases this with rfl | rfl | rfl | rfl | rfl
  · simp only [lv, tl, expression]
  · simp only [lv, tl, andarg]
  · simp only [lv, tl, logical]
  · simp only [lv, tl, addexp]
  · simp only [lv, tl, term]

theorem tl_some (ci : Bool) (p : ℕ) (h1 : 1 ≤ p) (h5 : p ≤ 5) (n : ℕ) (out : List Tok) (s name r : List Char)
    (h : umatchName ci (lvPat p) s = some (name, r)) :
    tl ci p (n + 1) (out, s) = (lv ci (p + 1) n (out, r)).bind fun x => tl ci p n (x.1 ++ [.bin name], x.2) := by
  have : p = 1 ∨ p = 2 ∨ p = 3 ∨ p = 4 ∨ p = 5 := by omega
  rcases this with rfl | rfl | rfl | rfl | rfl
  · simp only [lv, tl, exptail, lvPat] at h ⊢; rw [h]
  · simp only [lv, tl, andtail, lvPat] at h ⊢; rw [h]
  · simp only [lv, tl, logicaltail, lvPat] at h ⊢; rw [h]
  · simp only [lv, tl, addexptail, lvPat] at h ⊢; rw [h]
  · simp only [lv, tl, termtail, lvPat] at h ⊢; rw [h]

theorem tl_none (ci : Bool) (p : ℕ) (h1 : 1 ≤ p) (n : ℕ) (out : List Tok) (s : List Char) (hs : skipbl s = s)
    (h : p ≤ 5 → noOp p s) (h0 : p = 1 → noOp 0 s) : tl ci p (n + 1) (out, s) = .ok (out, s) := by
  by_cases h5 : p ≤ 5
  · have hm : umatchName ci (lvPat p) s = none := by rw [lvPat_match ci p h1 h5 s hs, (noOp_match p h1 h5 s).1 (h h5)]; rfl
    have : p = 1 ∨ p = 2 ∨ p = 3 ∨ p = 4 ∨ p = 5 := by omega
    rcases this with rfl | rfl | rfl | rfl | rfl
    · simp only [tl, exptail, lvPat] at hm ⊢
      rw [hm]
      have hq : umatchName ci patQuest s = none := by
        rw [pats.2.2.2.2.2, umatchName_bars ci _ (by decide) (by decide) s hs]
        have := h0 rfl
        cases s with
        | nil => rfl
        | cons c r =>
          simp only [noOp, List.head?_cons, ne_eq, Option.some.injEq] at this
          simp [matchAlts, strip, this]
      simp only [hq]
    · simp only [tl, andtail, lvPat] at hm ⊢; rw [hm]
    · simp only [tl, logicaltail, lvPat] at hm ⊢; rw [hm]
    · simp only [tl, addexptail, lvPat] at hm ⊢; rw [hm]
    · simp only [tl, termtail, lvPat] at hm ⊢; rw [hm]
  · obtain ⟨k, rfl⟩ : ∃ k, p = k + 6 := ⟨p - 6, by omega⟩
    rfl

theorem blank_nil : Blank [] := fun _ h => nomatch h

theorem blank_head {b s : List Char} (hb : Blank b) (h : HeadIn anyHead s) (c : Char) (hc : anyHead c = false) (hs : isSpace c = false) :
    (b ++ s).head? ≠ some c := by
  cases b with
  | nil => exact head_ne h hc
  | cons d b =>
    simp only [List.cons_append, List.head?_cons, ne_eq, Option.some.injEq]
    rintro rfl
    rw [hb d (by simp)] at hs; cases hs

theorem opLevel_cases {op : List Char} {p : ℕ} (h : opLevel op = some p) :
    (op = ['|', '|'] ∧ p = 1) ∨ (op = ['&', '&'] ∧ p = 2) ∨ (op = ['<'] ∧ p = 3) ∨ (op = ['>'] ∧ p = 3) ∨ (op = ['<', '='] ∧ p = 3) ∨
    (op = ['>', '='] ∧ p = 3) ∨ (op = ['=', '='] ∧ p = 3) ∨ (op = ['!', '='] ∧ p = 3) ∨ (op = ['+'] ∧ p = 4) ∨ (op = ['-'] ∧ p = 4) ∨
    (op = ['*'] ∧ p = 5) ∨ (op = ['/'] ∧ p = 5) ∨ (op = ['%'] ∧ p = 5) := by
  unfold opLevel at h
  split at h <;> cases h <;> simp

theorem opLevel_range {op : List Char} {p : ℕ} (h : opLevel op = some p) : 1 ≤ p ∧ p ≤ 5 := by
  rcases opLevel_cases h with h | h | h | h | h | h | h | h | h | h | h | h | h <;> omega

theorem op_skipbl {op : List Char} {p : ℕ} (h : opLevel op = some p) (x : List Char) : skipbl (op ++ x) = op ++ x := by
  rcases opLevel_cases h with ⟨rfl, _⟩ | ⟨rfl, _⟩ | ⟨rfl, _⟩ | ⟨rfl, _⟩ | ⟨rfl, _⟩ | ⟨rfl, _⟩ | ⟨rfl, _⟩ | ⟨rfl, _⟩ | ⟨rfl, _⟩ | ⟨rfl, _⟩ | ⟨rfl, _⟩ | ⟨rfl, _⟩ | ⟨rfl, _⟩ <;>
    rfl

theorem strip_eqsign (c : Char) (x : List Char) (h : x.head? ≠ some '=') : strip [c, '='] (c :: x) = none := by
  cases x with
  | nil => simp [strip]
  | cons d x =>
    simp only [List.head?_cons, ne_eq, Option.some.injEq] at h
    simp [strip, h]

theorem lvMatch_op {op : List Char} {p : ℕ} (h : opLevel op = some p) (x : List Char) (hx : x.head? ≠ some '=') :
    lvMatch p (op ++ x) = some x := by
  rcases opLevel_cases h with ⟨rfl, rfl⟩ | ⟨rfl, rfl⟩ | ⟨rfl, rfl⟩ | ⟨rfl, rfl⟩ | ⟨rfl, rfl⟩ | ⟨rfl, rfl⟩ | ⟨rfl, rfl⟩ | ⟨rfl, rfl⟩ | ⟨rfl, rfl⟩ | ⟨rfl, rfl⟩ | ⟨rfl, rfl⟩ | ⟨rfl, rfl⟩ | ⟨rfl, rfl⟩
  · simp [lvMatch, orMatch]
  · simp [lvMatch, lvAlts, altsAnd, matchAlts, strip]
  · simp only [lvMatch, lvAlts, altsLogical, matchAlts, List.cons_append, List.nil_append]
    rw [strip_eqsign '<' x hx]
    simp [strip]
  · simp only [lvMatch, lvAlts, altsLogical, matchAlts, List.cons_append, List.nil_append]
    rw [strip_eqsign '>' x hx]
    simp [strip]
  · simp [lvMatch, lvAlts, altsLogical, matchAlts, strip]
  · simp [lvMatch, lvAlts, altsLogical, matchAlts, strip]
  · simp [lvMatch, lvAlts, altsLogical, matchAlts, strip]
  · simp [lvMatch, lvAlts, altsLogical, matchAlts, strip]
  · simp [lvMatch, lvAlts, altsAdd, matchAlts, strip]
  · simp [lvMatch, lvAlts, altsAdd, matchAlts, strip]
  · simp [lvMatch, lvAlts, altsTerm, matchAlts, strip]
  · simp [lvMatch, lvAlts, altsTerm, matchAlts, strip]
  · simp [lvMatch, lvAlts, altsTerm, matchAlts, strip]

theorem tl_hit (ci : Bool) (p : ℕ) (op b s : List Char) (h : opLevel op = some p) (hb : Blank b) (hs : HeadIn anyHead s) (n : ℕ)
    (out : List Tok) :
    tl ci p (n + 1) (out, op ++ (b ++ s)) = (lv ci (p + 1) n (out, s)).bind fun x => tl ci p n (x.1 ++ [.bin op], x.2) := by
  obtain ⟨h1, h5⟩ := opLevel_range h
  refine tl_some ci p h1 h5 n out _ op s ?_
  rw [lvPat_match ci p h1 h5 _ (op_skipbl h _), lvMatch_op h _ (blank_head hb hs '=' (by decide) (by decide))]
  simp only [Option.map_some, skipcom_text b s hb hs]
  simp

/-- what ends an expression in the middle of another -/
theorem fol_of (p : ℕ) (b : List Char) (c : Char) (x : List Char) (hb : Blank b) (hg : isGraph c = true)
    (hn : isAlpha c = false ∧ isPfloat c = false ∧ c ≠ '_' ∧ c ≠ '$' ∧ c ≠ '[') (hp : c ≠ '(')
    (ho : ∀ q, p ≤ q → noOp q (c :: x)) : Fol p (b ++ c :: x) := by
  have hs : skipbl (b ++ c :: x) = c :: x := by rw [skipbl_blank b _ hb]; simp only [skipbl, hg, if_true]
  refine ⟨?_, ?_, ?_⟩
  · intro d hd
    cases b with
    | nil =>
      simp only [List.nil_append, List.head?_cons, Option.some.injEq] at hd
      subst hd; exact hn
    | cons y b =>
      simp only [List.cons_append, List.head?_cons, Option.some.injEq] at hd
      subst hd
      have hy := hb y (by simp)
      simp only [isSpace, Bool.or_eq_true, Bool.and_eq_true, decide_eq_true_eq, beq_iff_eq] at hy
      refine ⟨?_, ?_, ?_, ?_, ?_⟩
      · simp only [isAlpha, Bool.or_eq_false_iff, Bool.and_eq_false_iff, decide_eq_false_iff_not]; omega
      · simp only [isPfloat, isDigit, Bool.or_eq_false_iff, Bool.and_eq_false_iff, decide_eq_false_iff_not, beq_eq_false_iff_ne]
        refine ⟨by omega, ?_⟩
        rintro rfl; exact absurd hy (by decide)
      · rintro rfl; exact absurd hy (by decide)
      · rintro rfl; exact absurd hy (by decide)
      · rintro rfl; exact absurd hy (by decide)
  · rw [hs]; simpa using hp
  · rw [hs]; exact ho

theorem noOp_ge6 (q : ℕ) (h : 6 ≤ q) (s : List Char) : noOp q s := by
  obtain ⟨k, rfl⟩ : ∃ k, q = k + 6 := ⟨q - 6, by omega⟩
  trivial

/-- a character that begins no operator ends everything -/
theorem noOp_char (c : Char) (hc : c ∉ ['?', '|', '\\', '&', '<', '>', '=', '!', '+', '-', '*', '/', '%']) (q : ℕ) (x : List Char) :
    noOp q (c :: x) := by
  simp only [List.mem_cons, List.not_mem_nil, or_false, not_or] at hc
  obtain ⟨h1, h2, h3, h4, h5, h6, h7, h8, h9, h10, h11, h12, h13⟩ := hc
  by_cases h : 6 ≤ q
  · exact noOp_ge6 q h _
  · have : q = 0 ∨ q = 1 ∨ q = 2 ∨ q = 3 ∨ q = 4 ∨ q = 5 := by omega
    rcases this with rfl | rfl | rfl | rfl | rfl | rfl
    · simpa [noOp] using h1
    · cases x <;> simp [noOp, orMatch, h2, h3]
    · simp [noOp, matchAlts, altsAnd, strip, h4]
    · simp [noOp, matchAlts, altsLogical, strip, h5, h6, h7, h8]
    · simp [noOp, matchAlts, altsAdd, strip, h9, h10]
    · simp [noOp, matchAlts, altsTerm, strip, h11, h12, h13]

theorem fol_char (p : ℕ) (b : List Char) (c : Char) (x : List Char) (hb : Blank b) (hc : c = ')' ∨ c = '}' ∨ c = ',' ∨ c = ':') :
    Fol p (b ++ c :: x) := by
  refine fol_of p b c x hb ?_ ?_ ?_ fun q _ => noOp_char c ?_ q x
  all_goals rcases hc with rfl | rfl | rfl | rfl <;> decide

theorem fol_quest (b x : List Char) (hb : Blank b) : Fol 1 (b ++ '?' :: x) := by
  refine fol_of 1 b '?' x hb (by decide) (by decide) (by decide) fun q hq => ?_
  by_cases h : 6 ≤ q
  · exact noOp_ge6 q h _
  · have : q = 1 ∨ q = 2 ∨ q = 3 ∨ q = 4 ∨ q = 5 := by omega
    rcases this with rfl | rfl | rfl | rfl | rfl
    · cases x <;> simp [noOp, orMatch]
    all_goals simp [noOp, matchAlts, altsAnd, altsLogical, altsAdd, altsTerm, strip]

theorem fol_op (p : ℕ) (b op x : List Char) (hb : Blank b) (h : opLevel op = some p) : Fol (p + 1) (b ++ (op ++ x)) := by
  have key : ∀ q, p + 1 ≤ q → noOp q (op ++ x) := by
    intro q hq
    by_cases h6 : 6 ≤ q
    · exact noOp_ge6 q h6 _
    · have hq' : q = 0 ∨ q = 1 ∨ q = 2 ∨ q = 3 ∨ q = 4 ∨ q = 5 := by omega
      rcases opLevel_cases h with ⟨rfl, rfl⟩ | ⟨rfl, rfl⟩ | ⟨rfl, rfl⟩ | ⟨rfl, rfl⟩ | ⟨rfl, rfl⟩ | ⟨rfl, rfl⟩ | ⟨rfl, rfl⟩ | ⟨rfl, rfl⟩ | ⟨rfl, rfl⟩ | ⟨rfl, rfl⟩ | ⟨rfl, rfl⟩ | ⟨rfl, rfl⟩ | ⟨rfl, rfl⟩ <;>
        rcases hq' with rfl | rfl | rfl | rfl | rfl | rfl <;>
        first
        | (exfalso; omega)
        | simp [noOp, matchAlts, altsAnd, altsLogical, altsAdd, altsTerm, strip]
  rcases opLevel_cases h with ⟨rfl, rfl⟩ | ⟨rfl, rfl⟩ | ⟨rfl, rfl⟩ | ⟨rfl, rfl⟩ | ⟨rfl, rfl⟩ | ⟨rfl, rfl⟩ | ⟨rfl, rfl⟩ | ⟨rfl, rfl⟩ | ⟨rfl, rfl⟩ | ⟨rfl, rfl⟩ | ⟨rfl, rfl⟩ | ⟨rfl, rfl⟩ | ⟨rfl, rfl⟩ <;>
    exact fol_of _ b _ _ hb (by decide) (by decide) (by decide) key

/-! ## The heads of texts -/

theorem name_head_atom (s : List Char) (h : IsName s) : HeadIn atomHead s := by
  obtain ⟨c, r, rfl, hc⟩ := name_head s h
  exact ⟨c, r, rfl, by simp only [atomHead, hc, Bool.true_or]⟩

theorem HeadIn.any {s : List Char} (h : HeadIn atomHead s) : HeadIn anyHead s := by
  obtain ⟨c, r, rfl, hc⟩ := h
  exact ⟨c, r, rfl, by simp only [anyHead, hc, Bool.true_or]⟩

theorem text_head {p : ℕ} {e : Ex} {t : List Char} (h : Text p e t) : HeadIn anyHead t ∧ (p = 7 → HeadIn atomHead t) := by
  refine Text.rec (motive_1 := fun p _ t _ => HeadIn anyHead t ∧ (p = 7 → HeadIn atomHead t)) (motive_2 := fun _ t _ => HeadIn anyHead t)
    ?_ ?_ ?_ ?_ ?_ ?_ ?_ ?_ ?_ ?_ ?_ ?_ ?_ h
  · intro p e t hp h ih
    exact ⟨ih.1, fun h7 => absurd h7 (by omega)⟩
  · intro p op a b ta tb b1 b2 hop ha hb h1 h2 iha ihb
    exact ⟨iha.1.append _, fun h7 => absurd h7 (by have := opLevel_range hop; omega)⟩
  · intro c t f tc tt tf b1 b2 b3 b4 hc ht hf h1 h2 h3 h4 ihc iht ihf
    exact ⟨ihc.1.append _, fun h7 => absurd h7 (by omega)⟩
  · intro op e t b hop h hb ih
    refine ⟨⟨op, _, rfl, ?_⟩, fun h7 => absurd h7 (by omega)⟩
    rcases hop with rfl | rfl | rfl <;> decide
  · intro e t b1 b2 h h1 h2 ih
    have : HeadIn atomHead ('(' :: (b1 ++ (t ++ (b2 ++ [')'])))) := ⟨'(', _, rfl, by decide⟩
    exact ⟨this.any, fun _ => this⟩
  · intro s h
    exact ⟨(name_head_atom s h).any, fun _ => name_head_atom s h⟩
  · intro s h
    have : HeadIn atomHead ('"' :: (s ++ ['"'])) := ⟨'"', _, rfl, by decide⟩
    exact ⟨this.any, fun _ => this⟩
  · intro f b b1 h hb h1
    exact ⟨((name_head_atom f h).append _).any, fun _ => (name_head_atom f h).append _⟩
  · intro f b b1 b2 a t h ha hb h1 h2 ih
    exact ⟨((name_head_atom f h).append _).any, fun _ => (name_head_atom f h).append _⟩
  · intro b b1 hb h1
    have : HeadIn atomHead ('\'' :: (b ++ '{' :: (b1 ++ ['}']))) := ⟨'\'', _, rfl, by decide⟩
    exact ⟨this.any, fun _ => this⟩
  · intro b b1 b2 a t ha hb h1 h2 ih
    have : HeadIn atomHead ('\'' :: (b ++ '{' :: (b1 ++ (t ++ (b2 ++ ['}']))))) := ⟨'\'', _, rfl, by decide⟩
    exact ⟨this.any, fun _ => this⟩
  · intro e t h ih
    exact ih.1
  · intro e a t u b1 b2 h ha h1 h2 ih iha
    exact ih.1.append _

theorem textArgs_head {a : Args} {t : List Char} (h : TextArgs a t) : HeadIn anyHead t := by
  cases h with
  | one e t h => exact (text_head h).1
  | cons e a t u b1 b2 h ha h1 h2 => exact (text_head h).1.append _

theorem text_le {p : ℕ} {e : Ex} {t : List Char} (h : Text p e t) : p ≤ 7 := by
  cases h with
  | up p e t hp h => omega
  | bin p op a b ta tb b1 b2 hop => have := opLevel_range hop; omega
  | _ => omega

/-! ## The outcome for large fuel -/

def Ev (f : ℕ → St → PRes St) (st : St) (x : PRes St) : Prop := ∃ N, ∀ n, N ≤ n → f n st = x

theorem Ev.bind {f g : ℕ → St → PRes St} {st st' : St} {x : PRes St} (h : Ev f st (.ok st')) (hg : Ev g st' x) :
    Ev (fun n s => (f n s).bind (g n)) st x := by
  obtain ⟨N, hN⟩ := h
  obtain ⟨M, hM⟩ := hg
  refine ⟨max N M, fun n hn => ?_⟩
  simp only [hN n (le_trans (le_max_left _ _) hn)]
  exact hM n (le_trans (le_max_right _ _) hn)

/-- one level down -/
theorem Ev.succ {f g : ℕ → St → PRes St} {st st' : St} {x : PRes St} (h : Ev g st' x) (he : ∀ n, f (n + 1) st = g n st') : Ev f st x := by
  obtain ⟨N, hN⟩ := h
  refine ⟨N + 1, fun n hn => ?_⟩
  obtain ⟨m, rfl⟩ : ∃ m, n = m + 1 := ⟨n - 1, by omega⟩
  rw [he]; exact hN m (by omega)

theorem Ev.const {f : ℕ → St → PRes St} {st : St} {x : PRes St} (he : ∀ n, f (n + 1) st = x) : Ev f st x := by
  refine ⟨1, fun n hn => ?_⟩
  obtain ⟨m, rfl⟩ : ∃ m, n = m + 1 := ⟨n - 1, by omega⟩
  exact he m

theorem Fol.mono {p q : ℕ} {s : List Char} (h : Fol p s) (hpq : p ≤ q) : Fol q s := ⟨h.name, h.paren, fun r hr => h.op r (by omega)⟩

theorem tl_ends (ci : Bool) (p : ℕ) (h1 : 1 ≤ p) (out : List Tok) (rest : List Char) (hf : Fol (if p = 1 then 0 else p) rest) :
    Ev (tl ci p) (out, skipbl rest) (.ok (out, skipbl rest)) := by
  refine Ev.const fun n => tl_none ci p h1 n out _ (skipbl_idem rest) (fun _ => ?_) (fun h => ?_)
  · refine hf.op p ?_; split <;> omega
  · subst h; exact hf.op 0 (by simp)

/-- what the theorem says for a text -/
structure Reads (ci : Bool) (p : ℕ) (e : Ex) (t : List Char) : Prop where
  lev : 1 ≤ p → ∀ out rest x, Fol (p + 1) rest → Ev (tl ci p) (out ++ rpn e, skipbl rest) x → Ev (lv ci p) (out, t ++ rest) x
  top : p = 0 → ∀ out rest, Fol 0 rest → Ev (expression ci) (out, t ++ rest) (.ok (out ++ rpn e, skipbl rest))

theorem Reads.done {ci : Bool} {p : ℕ} {e : Ex} {t : List Char} (h : Reads ci p e t) (h1 : 1 ≤ p) (out : List Tok) (rest : List Char)
    (hf : Fol (if p = 1 then 0 else p) rest) : Ev (lv ci p) (out, t ++ rest) (.ok (out ++ rpn e, skipbl rest)) :=
  h.lev h1 out rest _ (hf.mono (by split <;> omega)) (tl_ends ci p h1 _ rest hf)

def ReadsArgs (ci : Bool) (a : Args) (t : List Char) : Prop :=
  ∀ out rest, Fol 0 rest → (skipbl rest).head? ≠ some ',' →
    Ev (fun n st => (expression ci n st).bind (arglisttail ci n)) (out, t ++ rest) (.ok (out ++ rpnArgs a, skipbl rest))

theorem factor_atom (ci : Bool) (n : ℕ) (out : List Tok) (s : List Char) (h : HeadIn atomHead s) :
    factor ci (n + 1) (out, s) = operand ci n (out, s) := by
  have hm : umatchName ci patUnary s = none := by
    rw [pats.1, umatchName_bars ci _ (by decide) (by decide) s (skipbl_head h.any)]
    obtain ⟨c, r, rfl, hc⟩ := h
    have h1 : c ≠ '-' := by rintro rfl; revert hc; decide
    have h2 : c ≠ '+' := by rintro rfl; revert hc; decide
    have h3 : c ≠ '!' := by rintro rfl; revert hc; decide
    simp [matchAlts, strip, h1, h2, h3]
  simp only [factor, hm]

theorem factor_sign (ci : Bool) (n : ℕ) (out : List Tok) (op : Char) (hop : op = '-' ∨ op = '+' ∨ op = '!') (b s : List Char) (hb : Blank b)
    (h : HeadIn anyHead s) :
    factor ci (n + 1) (out, op :: (b ++ s)) = (operand ci n (out, s)).bind fun x => .ok (x.1 ++ [.un [op]], x.2) := by
  have hm : umatchName ci patUnary (op :: (b ++ s)) = some ([op], s) := by
    rw [pats.1, umatchName_bars ci _ (by decide) (by decide) _ (by rcases hop with rfl | rfl | rfl <;> rfl)]
    have : matchAlts (op :: (b ++ s)) [['-'], ['+'], ['!']] (op :: (b ++ s)) = some (b ++ s) := by
      rcases hop with rfl | rfl | rfl <;> simp [matchAlts, strip]
    rw [this]
    simp only [Option.map_some, skipcom_text b s hb h]
    simp
  simp only [factor, hm]

theorem operand_leaf (ci : Bool) (n : ℕ) (out : List Tok) (s : List Char) (h : HeadIn atomHead s) (hp : s.head? ≠ some '(') :
    operand ci (n + 1) (out, s) = leaf ci n (out, s) := by
  have := skipbl_head h.any
  have hm : skip1b '(' s = (false, s) := by rw [skip1b_miss '(' s (by rwa [this]), this]
  simp only [operand, hm]

/-- reading a name -/
theorem leaf_name (ci : Bool) (n : ℕ) (out : List Tok) (s rest : List Char) (h : IsName s) (hr : StopsName rest) :
    leaf ci (n + 1) (out, s ++ rest) = (arglist ci n (out, skipbl rest)).bind fun x => .ok (x.1 ++ [.sym s], x.2) := by
  have hh := (name_head s h).append rest
  have hn := nameString_spec s rest h hr
  have hl : (skipbl rest).length < (s ++ rest).length := by
    have := skipbl_le rest
    obtain ⟨c, r, rfl, -⟩ := name_head s h
    simp only [List.length_append, List.length_cons]; omega
  have hq : skip1b '\'' (s ++ rest) = (false, s ++ rest) := by
    have hs := skipbl_head ((name_head_atom s h).append rest).any
    rw [skip1b_miss _ _ (by
      rw [hs]
      obtain ⟨c, r, e, hc⟩ := hh
      rw [e]
      simp only [List.head?_cons, ne_eq, Option.some.injEq]
      rintro rfl
      revert hc; decide), hs]
  have h1 : (s ++ rest).head? ≠ some '"' := by
    obtain ⟨c, r, e, hc⟩ := hh
    rw [e]
    simp only [List.head?_cons, ne_eq, Option.some.injEq]
    rintro rfl
    revert hc; decide
  have h2 : (s ++ rest).head? ≠ some '<' := by
    obtain ⟨c, r, e, hc⟩ := hh
    rw [e]
    simp only [List.head?_cons, ne_eq, Option.some.injEq]
    rintro rfl
    revert hc; decide
  simp only [leaf, h1, h2, if_false, hq, hn, hl, if_true]

theorem atom_paren {s : List Char} (h : HeadIn identChar s) : s.head? ≠ some '(' := by
  obtain ⟨c, r, rfl, hc⟩ := h
  simp only [List.head?_cons, ne_eq, Option.some.injEq]
  rintro rfl
  revert hc; decide

theorem stops_paren (b x : List Char) (hb : Blank b) : StopsName (b ++ '(' :: x) := by
  intro d hd
  cases b with
  | nil =>
    simp only [List.nil_append, List.head?_cons, Option.some.injEq] at hd
    subst hd; decide
  | cons y b =>
    have := (fol_char 0 (y :: b) ')' [] hb (Or.inl rfl)).name d
    exact this hd

theorem args_head {a : Args} {t : List Char} (ha : TextArgs a t) (b u : List Char) (hb : Blank b) : skipbl (b ++ (t ++ u)) = t ++ u := by
  rw [skipbl_blank b _ hb, skipbl_head ((textArgs_head ha).append u)]

theorem read_text (ci : Bool) {p : ℕ} {e : Ex} {t : List Char} (h : Text p e t) : Reads ci p e t := by
  refine Text.rec (motive_1 := fun p e t _ => Reads ci p e t) (motive_2 := fun a t _ => ReadsArgs ci a t)
    ?_ ?_ ?_ ?_ ?_ ?_ ?_ ?_ ?_ ?_ ?_ ?_ ?_ h
  · -- a tighter level
    intro p e t hp h ih
    refine ⟨fun h1 out rest x hf hx => ?_, fun h0 out rest hf => ?_⟩
    · by_cases h5 : p ≤ 5
      · have h2 := ih.done (by omega) out rest (by rw [if_neg (by omega)]; exact hf)
        exact (h2.bind hx).succ fun n => lv_succ ci p h1 h5 n _
      · obtain rfl : p = 6 := by omega
        have h2 := ih.lev (by omega) out rest x (hf.mono (by omega)) hx
        exact h2.succ fun n => factor_atom ci n out _ (((text_head h).2 rfl).append rest)
    · subst h0
      exact ih.done (by omega) out rest hf
  · -- a binary operator
    intro p op a b ta tb b1 b2 hop ha hb h1 h2 iha ihb
    obtain ⟨hp1, hp5⟩ := opLevel_range hop
    refine ⟨fun _ out rest x hf hx => ?_, fun h0 => absurd h0 (by omega)⟩
    have e1 : ta ++ (b1 ++ (op ++ (b2 ++ tb))) ++ rest = ta ++ (b1 ++ (op ++ (b2 ++ (tb ++ rest)))) := by simp
    rw [e1]
    refine iha.lev hp1 out _ x (fol_op p b1 op _ h1 hop) ?_
    rw [skipbl_blank b1 _ h1, op_skipbl hop]
    have h3 := ihb.done (by omega) (out ++ rpn a) rest (by rw [if_neg (by omega)]; exact hf)
    have h4 : Ev (fun n st => tl ci p n (st.1 ++ [.bin op], st.2)) (out ++ rpn a ++ rpn b, skipbl rest) x := by
      simp only [rpn] at hx
      rw [← List.append_assoc, ← List.append_assoc] at hx
      exact hx
    exact (h3.bind h4).succ fun n => tl_hit ci p op b2 (tb ++ rest) hop h2 ((text_head hb).1.append rest) n (out ++ rpn a)
  · -- the conditional
    intro c t f tc tt tf b1 b2 b3 b4 hc ht hf h1 h2 h3 h4 ihc iht ihf
    refine ⟨fun h1 => absurd h1 (by omega), fun _ out rest hfol => ?_⟩
    have e1 : tc ++ (b1 ++ '?' :: (b2 ++ (tt ++ (b3 ++ ':' :: (b4 ++ tf))))) ++ rest =
        tc ++ (b1 ++ '?' :: (b2 ++ (tt ++ (b3 ++ ':' :: (b4 ++ (tf ++ rest)))))) := by simp
    rw [e1]
    refine ihc.lev le_rfl out _ _ ((fol_quest b1 _ h1).mono (by omega)) ?_
    rw [skipbl_blank b1 _ h1, show ∀ u, skipbl ('?' :: u) = '?' :: u from fun u => rfl]
    have hq : ∀ n, tl ci 1 (n + 1) (out ++ rpn c, '?' :: (b2 ++ (tt ++ (b3 ++ ':' :: (b4 ++ (tf ++ rest)))))) =
        ternary ci n (out ++ rpn c, tt ++ (b3 ++ ':' :: (b4 ++ (tf ++ rest)))) := by
      intro n
      have hm1 : umatchName ci patOr ('?' :: (b2 ++ (tt ++ (b3 ++ ':' :: (b4 ++ (tf ++ rest)))))) = none := by
        rw [umatchName_or ci _ rfl]
        generalize b2 ++ (tt ++ (b3 ++ ':' :: (b4 ++ (tf ++ rest)))) = u
        cases u <;> simp [orMatch]
      have hm2 : umatchName ci patQuest ('?' :: (b2 ++ (tt ++ (b3 ++ ':' :: (b4 ++ (tf ++ rest)))))) =
          some (['?'], tt ++ (b3 ++ ':' :: (b4 ++ (tf ++ rest)))) := by
        rw [pats.2.2.2.2.2, umatchName_bars ci _ (by decide) (by decide) _ rfl]
        have : ∀ u, matchAlts ('?' :: u) [['?']] ('?' :: u) = some u := fun u => by simp [matchAlts, strip]
        rw [this]
        simp only [Option.map_some, skipcom_text b2 _ h2 ((text_head ht).1.append _)]
        simp
      simp only [tl, exptail, hm1, hm2]
    refine Ev.succ (g := ternary ci) ?_ hq
    have h5 := iht.top rfl [] (b3 ++ ':' :: (b4 ++ (tf ++ rest))) (fol_char 0 b3 ':' _ h3 (by simp))
    have h6 := ihf.top rfl [] rest hfol
    obtain ⟨N, hN⟩ := h5
    obtain ⟨M, hM⟩ := h6
    refine ⟨max N M + 1, fun n hn => ?_⟩
    obtain ⟨m, rfl⟩ : ∃ m, n = m + 1 := ⟨n - 1, by omega⟩
    have hm1 : N ≤ m := le_trans (le_max_left N M) (by omega)
    have hm2 : M ≤ m := le_trans (le_max_right N M) (by omega)
    have hs1 : skip1b ':' (skipbl (b3 ++ ':' :: (b4 ++ (tf ++ rest)))) = (true, tf ++ rest) := by
      rw [skipbl_blank b3 _ h3]
      have := skip1b_hit ':' [] (b4 ++ (tf ++ rest)) blank_nil (by decide)
      rw [List.nil_append] at this
      rw [show ∀ u, skipbl (':' :: u) = ':' :: u from fun u => rfl, this, skipbl_blank b4 _ h4,
        skipbl_head ((text_head hf).1.append rest)]
    simp only [ternary, hN m hm1, PRes.bind, hs1, hM m hm2, List.nil_append, rpn, List.append_assoc]
  · -- a sign
    intro op e t b hop h hb ih
    refine ⟨fun _ out rest x hf hx => ?_, fun h0 => absurd h0 (by omega)⟩
    obtain ⟨N, hN⟩ := ih.done (by omega) out rest (hf.mono (by norm_num))
    obtain ⟨M, hM⟩ := hx
    refine ⟨max N M + 1, fun n hn => ?_⟩
    obtain ⟨m, rfl⟩ : ∃ m, n = m + 1 := ⟨n - 1, by omega⟩
    have hm1 : N ≤ m := le_trans (le_max_left N M) (by omega)
    have hm2 : M ≤ m := le_trans (le_max_right N M) (by omega)
    have e1 : op :: (b ++ t) ++ rest = op :: (b ++ (t ++ rest)) := by simp
    rw [e1]
    have h1 := factor_sign ci m out op hop b (t ++ rest) hb ((text_head h).1.append rest)
    have h2 := hN m hm1
    have h3 := hM m hm2
    simp only [lv, tl, rpn] at h1 h2 h3 ⊢
    rw [h1, h2, ← h3]
    simp [PRes.bind]
  · -- parentheses
    intro e t b1 b2 h h1 h2 ih
    refine ⟨fun _ out rest x hf hx => ?_, fun h0 => absurd h0 (by omega)⟩
    have e1 : '(' :: (b1 ++ (t ++ (b2 ++ [')']))) ++ rest = '(' :: (b1 ++ (t ++ (b2 ++ ')' :: rest))) := by simp
    rw [e1]
    obtain ⟨N, hN⟩ := ih.top rfl out (b2 ++ ')' :: rest) (fol_char 0 b2 ')' _ h2 (by simp))
    obtain ⟨M, hM⟩ := hx
    refine ⟨max N M + 1, fun n hn => ?_⟩
    obtain ⟨m, rfl⟩ : ∃ m, n = m + 1 := ⟨n - 1, by omega⟩
    have hm1 : N ≤ m := le_trans (le_max_left N M) (by omega)
    have hm2 : M ≤ m := le_trans (le_max_right N M) (by omega)
    have hs1 : skip1b '(' ('(' :: (b1 ++ (t ++ (b2 ++ ')' :: rest)))) = (true, t ++ (b2 ++ ')' :: rest)) := by
      have := skip1b_hit '(' [] (b1 ++ (t ++ (b2 ++ ')' :: rest))) blank_nil (by decide)
      rw [List.nil_append] at this
      rw [this, skipbl_blank b1 _ h1, skipbl_head ((text_head h).1.append _)]
    have hs2 : skip1b ')' (skipbl (b2 ++ ')' :: rest)) = (true, skipbl rest) := by
      rw [skipbl_blank b2 _ h2]
      exact skip1b_hit ')' [] rest blank_nil (by decide)
    have h3 := hM m hm2
    simp only [tl] at h3
    simp only [lv, operand, hs1, hN m hm1, PRes.bind, hs2, h3]
  · -- a name
    intro s h
    refine ⟨fun _ out rest x hf hx => ?_, fun h0 => absurd h0 (by omega)⟩
    obtain ⟨M, hM⟩ := hx
    refine ⟨M + 3, fun n hn => ?_⟩
    obtain ⟨m, rfl⟩ : ∃ m, n = m + 3 := ⟨n - 3, by omega⟩
    have h3 := hM m (by omega)
    simp only [tl, rpn] at h3
    have hs : skip1b '(' (skipbl rest) = (false, skipbl rest) := by
      rw [skip1b_miss '(' _ (by rw [skipbl_idem]; exact hf.paren), skipbl_idem]
    simp only [lv]
    rw [operand_leaf ci (m + 2) out _ ((name_head_atom s h).append rest) (atom_paren ((name_head s h).append rest)),
      leaf_name ci (m + 1) out s rest h hf.name]
    simp only [arglist, hs, PRes.bind, h3]
  · -- a string
    intro s h
    refine ⟨fun _ out rest x hf hx => ?_, fun h0 => absurd h0 (by omega)⟩
    obtain ⟨M, hM⟩ := hx
    refine ⟨M + 2, fun n hn => ?_⟩
    obtain ⟨m, rfl⟩ : ∃ m, n = m + 2 := ⟨n - 2, by omega⟩
    have h3 := hM m (by omega)
    simp only [tl, rpn] at h3
    have e1 : '"' :: (s ++ ['"']) ++ rest = '"' :: (s ++ '"' :: rest) := by simp
    simp only [lv]
    rw [e1, operand_leaf ci (m + 1) out _ ⟨'"', _, rfl, by decide⟩ (by simp)]
    simp only [leaf, List.head?_cons, if_true, List.tail_cons, quoted_spec s rest h, h3]
  · -- a call without arguments
    intro f b b1 h hb h1
    refine ⟨fun _ out rest x hf hx => ?_, fun h0 => absurd h0 (by omega)⟩
    obtain ⟨M, hM⟩ := hx
    refine ⟨M + 3, fun n hn => ?_⟩
    obtain ⟨m, rfl⟩ : ∃ m, n = m + 3 := ⟨n - 3, by omega⟩
    have h3 := hM m (by omega)
    simp only [tl, rpn, rpnArgs] at h3
    have e1 : f ++ (b ++ '(' :: (b1 ++ [')'])) ++ rest = f ++ (b ++ '(' :: (b1 ++ ')' :: rest)) := by simp
    simp only [lv]
    rw [e1, operand_leaf ci (m + 2) out _ ((name_head_atom f h).append _) (atom_paren ((name_head f h).append _)),
      leaf_name ci (m + 1) out f _ h (stops_paren b _ hb)]
    have hs1 : skip1b '(' (skipbl (b ++ '(' :: (b1 ++ ')' :: rest))) = (true, ')' :: rest) := by
      rw [skipbl_blank b _ hb]
      have := skip1b_hit '(' [] (b1 ++ ')' :: rest) blank_nil (by decide)
      rw [List.nil_append] at this
      rw [show ∀ u, skipbl ('(' :: u) = '(' :: u from fun u => rfl, this, skipbl_blank b1 _ h1]
      rfl
    have hs2 : skip1b ')' (')' :: rest) = (true, skipbl rest) := skip1b_hit ')' [] rest blank_nil (by decide)
    simp only [arglist, hs1, hs2, PRes.bind]
    rw [← h3]
    simp
  · -- a call
    intro f b b1 b2 a t h ha hb h1 h2 ih
    refine ⟨fun _ out rest x hf hx => ?_, fun h0 => absurd h0 (by omega)⟩
    obtain ⟨N, hN⟩ := ih (out ++ [.stop ['(']]) (b2 ++ ')' :: rest) (fol_char 0 b2 ')' _ h2 (by simp))
      (by rw [skipbl_blank b2 _ h2, show ∀ u, skipbl (')' :: u) = ')' :: u from fun u => rfl]; simp)
    obtain ⟨M, hM⟩ := hx
    refine ⟨max N M + 3, fun n hn => ?_⟩
    obtain ⟨m, rfl⟩ : ∃ m, n = m + 3 := ⟨n - 3, by omega⟩
    have hm1 : N ≤ m := le_trans (le_max_left N M) (by omega)
    have hm2 : M ≤ m := le_trans (le_max_right N M) (by omega)
    have h3 := hM m hm2
    simp only [tl, rpn] at h3
    have e1 : f ++ (b ++ '(' :: (b1 ++ (t ++ (b2 ++ [')'])))) ++ rest = f ++ (b ++ '(' :: (b1 ++ (t ++ (b2 ++ ')' :: rest)))) := by simp
    simp only [lv]
    rw [e1, operand_leaf ci (m + 2) out _ ((name_head_atom f h).append _) (atom_paren ((name_head f h).append _)),
      leaf_name ci (m + 1) out f _ h (stops_paren b _ hb)]
    have hs1 : skip1b '(' (skipbl (b ++ '(' :: (b1 ++ (t ++ (b2 ++ ')' :: rest))))) = (true, t ++ (b2 ++ ')' :: rest)) := by
      rw [skipbl_blank b _ hb]
      have := skip1b_hit '(' [] (b1 ++ (t ++ (b2 ++ ')' :: rest))) blank_nil (by decide)
      rw [List.nil_append] at this
      rw [show ∀ u, skipbl ('(' :: u) = '(' :: u from fun u => rfl, this, args_head ha b1 _ h1]
    have hs2 : skip1b ')' (t ++ (b2 ++ ')' :: rest)) = (false, t ++ (b2 ++ ')' :: rest)) := by
      have := skipbl_head ((textArgs_head ha).append (b2 ++ ')' :: rest))
      rw [skip1b_miss ')' _ (by rw [this]; exact head_ne ((textArgs_head ha).append _) (by decide)), this]
    have hs3 : skip1b ')' (skipbl (b2 ++ ')' :: rest)) = (true, skipbl rest) := by
      rw [skipbl_blank b2 _ h2]
      exact skip1b_hit ')' [] rest blank_nil (by decide)
    have hN' := hN m hm1
    simp only at hN'
    simp only [arglist, hs1, hs2, hN']
    simp only [PRes.bind, hs3]
    rw [← h3]
    simp
  · -- an array without elements
    intro b b1 hb h1
    refine ⟨fun _ out rest x hf hx => ?_, fun h0 => absurd h0 (by omega)⟩
    obtain ⟨M, hM⟩ := hx
    refine ⟨M + 3, fun n hn => ?_⟩
    obtain ⟨m, rfl⟩ : ∃ m, n = m + 3 := ⟨n - 3, by omega⟩
    have h3 := hM m (by omega)
    simp only [tl, rpn, rpnArgs] at h3
    have e1 : '\'' :: (b ++ '{' :: (b1 ++ ['}'])) ++ rest = '\'' :: (b ++ '{' :: (b1 ++ '}' :: rest)) := by simp
    simp only [lv]
    rw [e1, operand_leaf ci (m + 2) out _ ⟨'\'', _, rfl, by decide⟩ (by simp)]
    have hs1 : skip1b '\'' ('\'' :: (b ++ '{' :: (b1 ++ '}' :: rest))) = (true, '{' :: (b1 ++ '}' :: rest)) := by
      have := skip1b_hit '\'' [] (b ++ '{' :: (b1 ++ '}' :: rest)) blank_nil (by decide)
      rw [List.nil_append] at this
      rw [this, skipbl_blank b _ hb]
      rfl
    have hs2 : skip1b '}' (b1 ++ '}' :: rest) = (true, skipbl rest) := skip1b_hit '}' b1 rest h1 (by decide)
    simp only [leaf, List.head?_cons, hs1, arrayTail, hs2]
    rw [← h3]
    simp
  · -- an array
    intro b b1 b2 a t ha hb h1 h2 ih
    refine ⟨fun _ out rest x hf hx => ?_, fun h0 => absurd h0 (by omega)⟩
    obtain ⟨N, hN⟩ := ih (out ++ [.stop ['\'', '{']]) (b2 ++ '}' :: rest) (fol_char 0 b2 '}' _ h2 (by simp))
      (by rw [skipbl_blank b2 _ h2, show ∀ u, skipbl ('}' :: u) = '}' :: u from fun u => rfl]; simp)
    obtain ⟨M, hM⟩ := hx
    refine ⟨max N M + 3, fun n hn => ?_⟩
    obtain ⟨m, rfl⟩ : ∃ m, n = m + 3 := ⟨n - 3, by omega⟩
    have hm1 : N ≤ m := le_trans (le_max_left N M) (by omega)
    have hm2 : M ≤ m := le_trans (le_max_right N M) (by omega)
    have h3 := hM m hm2
    simp only [tl, rpn] at h3
    have e1 : '\'' :: (b ++ '{' :: (b1 ++ (t ++ (b2 ++ ['}'])))) ++ rest = '\'' :: (b ++ '{' :: (b1 ++ (t ++ (b2 ++ '}' :: rest)))) := by simp
    simp only [lv]
    rw [e1, operand_leaf ci (m + 2) out _ ⟨'\'', _, rfl, by decide⟩ (by simp)]
    have hs1 : skip1b '\'' ('\'' :: (b ++ '{' :: (b1 ++ (t ++ (b2 ++ '}' :: rest))))) = (true, '{' :: (b1 ++ (t ++ (b2 ++ '}' :: rest)))) := by
      have := skip1b_hit '\'' [] (b ++ '{' :: (b1 ++ (t ++ (b2 ++ '}' :: rest)))) blank_nil (by decide)
      rw [List.nil_append] at this
      rw [this, skipbl_blank b _ hb]
      rfl
    have hs2 : skip1b '}' (b1 ++ (t ++ (b2 ++ '}' :: rest))) = (false, t ++ (b2 ++ '}' :: rest)) := by
      have := args_head ha b1 (b2 ++ '}' :: rest) h1
      rw [skip1b_miss '}' _ (by rw [this]; exact head_ne ((textArgs_head ha).append _) (by decide)), this]
    have hs3 : skip1b '}' (skipbl (b2 ++ '}' :: rest)) = (true, skipbl rest) := by
      rw [skipbl_blank b2 _ h2]
      exact skip1b_hit '}' [] rest blank_nil (by decide)
    have hN' := hN m hm1
    simp only at hN'
    simp only [leaf, List.head?_cons, hs1, arrayTail, hs2, hN']
    simp only [PRes.bind, hs3]
    rw [← h3]
    simp
  · -- one argument
    intro e t h ih out rest hf hc
    have h1 := ih.top rfl out rest hf
    refine h1.bind (Ev.const fun n => ?_)
    have hs : skip1b ',' (skipbl rest) = (false, skipbl rest) := by
      rw [skip1b_miss ',' _ (by rw [skipbl_idem]; exact hc), skipbl_idem]
    simp only [arglisttail, hs, rpnArgs, List.append_nil]
  · -- more arguments
    intro e a t u b1 b2 h ha h1 h2 ih iha out rest hf hc
    have e1 : t ++ (b1 ++ ',' :: (b2 ++ u)) ++ rest = t ++ (b1 ++ ',' :: (b2 ++ (u ++ rest))) := by simp
    rw [e1]
    have h3 := ih.top rfl out (b1 ++ ',' :: (b2 ++ (u ++ rest))) (fol_char 0 b1 ',' _ h1 (by simp))
    have h4 := iha (out ++ rpn e) rest hf hc
    have hs : skip1b ',' (skipbl (b1 ++ ',' :: (b2 ++ (u ++ rest)))) = (true, u ++ rest) := by
      rw [skipbl_blank b1 _ h1]
      have := skip1b_hit ',' [] (b2 ++ (u ++ rest)) blank_nil (by decide)
      rw [List.nil_append] at this
      rw [show ∀ u, skipbl (',' :: u) = ',' :: u from fun u => rfl, this, args_head ha b2 _ h2]
    have h5 : Ev (arglisttail ci) (out ++ rpn e, skipbl (b1 ++ ',' :: (b2 ++ (u ++ rest)))) (.ok (out ++ rpn e ++ rpnArgs a, skipbl rest)) :=
      h4.succ fun n => by simp only [arglisttail, hs]
    rw [List.append_assoc] at h5
    exact h3.bind h5

/-! ## C38 -/

/-- C38: every text of an expression tree is read as that tree: the tokens are its reverse Polish form, up to the end of the text -/
theorem parse_text (ci : Bool) (e : Ex) (t rest : List Char) (h : Text 0 e t) (hf : Fol 0 rest) :
    parse ci (t ++ rest) = .ok (rpn e, skipbl rest) := by
  obtain ⟨N, hN⟩ := (read_text ci h).top rfl [] rest hf
  exact parse_of ci _ N _ (by simp) (hN N le_rfl)

theorem parse_all (ci : Bool) (e : Ex) (t : List Char) (h : Text 0 e t) : parse ci t = .ok (rpn e, []) := by
  have hf : Fol 0 [] := by
    refine ⟨fun c hc => (nomatch hc), by simp [skipbl], fun q _ => ?_⟩
    match q with
    | 0 => simp [noOp, skipbl]
    | 1 => rfl
    | 2 => rfl
    | 3 => rfl
    | 4 => rfl
    | 5 => rfl
    | k + 6 => trivial
  have := parse_text ci e t [] h hf
  rwa [List.append_nil] at this

end Gnucap.Expr
