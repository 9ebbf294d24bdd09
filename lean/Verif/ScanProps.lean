import Verif.ScanModel
import Mathlib.Data.List.Basic
import Mathlib.Tactic.Common

/-!
# Keyword matching (C43)

Specification: a pattern is a list of alternatives; an alternative is a list of segments: a character, an optional part, a delimiter.
-/
namespace Gnucap.Scan

/-- a piece of a pattern -/
inductive Seg where
  | lit (c : Char)          -- a character that must be there
  | opt (w : List Char)     -- `{...}`: as much of it as the input has
  | delim                   -- a blank: something that ends a token

/-- how it is written -/
def Seg.text : Seg → List Char
  | .lit c => [c]
  | .opt w => '{' :: (w ++ ['}'])
  | .delim => [' ']

def segText (l : List Seg) : List Char := l.flatMap Seg.text

/-- alternatives are written with bars between -/
def altText : List (List Seg) → List Char
  | [] => []
  | [a] => segText a
  | a :: b :: r => segText a ++ '|' :: altText (b :: r)

/-- characters with a meaning of their own -/
def special (c : Char) : Bool := c == '\\' || c == '{' || c == '}' || c == '|' || c == ' '

def Seg.wf : Seg → Bool
  | .lit c => !special c
  | .opt w => w.all (fun c => !special c)
  | .delim => true

/-- the input after as much of `w` as it starts with -/
def optDrop (ci : Bool) : List Char → List Char → List Char
  | [], inp => inp
  | _ :: _, [] => []
  | c :: w, d :: inp => if eqc ci d c then optDrop ci w inp else d :: inp

/-- what one alternative consumes -/
def segMatch (ci : Bool) : List Seg → List Char → Option (List Char)
  | [], inp => some inp
  | .lit c :: r, inp =>
    match inp with
    | [] => none
    | d :: t => if eqc ci d c then segMatch ci r t else none
  | .opt w :: r, inp => segMatch ci r (optDrop ci w inp)
  | .delim :: r, inp => if isTerm inp then segMatch ci r (skipbl inp) else none

/-- the first alternative that matches -/
def firstMatch (ci : Bool) (alts : List (List Seg)) (inp : List Char) : Option (List Char) := alts.findSome? (fun a => segMatch ci a inp)

theorem afterBar_none (p : Char) (t : List Char) (h : ∀ c ∈ t, c ≠ '|') : afterBar p t = none := by
  induction t generalizing p with
  | nil => rfl
  | cons c t ih => unfold afterBar; rw [if_neg (h c (by simp))]; exact ih c fun d hd => h d (by simp [hd])

theorem afterBar_some (p : Char) (t more : List Char) (h : ∀ c ∈ t, c ≠ '|') (h' : ∀ c ∈ p :: t, c ≠ '\\') :
    afterBar p (t ++ '|' :: more) = some more := by
  induction t generalizing p with
  | nil => simp [afterBar, h' p (by simp)]
  | cons c t ih =>
    rw [List.cons_append]
    unfold afterBar; rw [if_neg (h c (by simp))]
    exact ih c (fun d hd => h d (by simp [hd])) (fun d hd => h' d (List.mem_cons_of_mem _ hd))

/-- where the search goes after a mismatch -/
def onFail (ci : Bool) (start : List Char) : Option (List Char) → Res
  | some q => umatchGo ci q false start start
  | none => .fail

theorem special_ne {c : Char} (h : special c = false) : c ≠ '\\' ∧ c ≠ '{' ∧ c ≠ '}' ∧ c ≠ '|' ∧ c ≠ ' ' := by
  simp only [special, Bool.or_eq_false_iff, beq_eq_false_iff_ne] at h
  exact ⟨h.1.1.1.1, h.1.1.1.2, h.1.1.2, h.1.2, h.2⟩

theorem go_lit (ci : Bool) (p : Char) (q start inp : List Char) (hp : special p = false) :
    umatchGo ci (p :: q) false start inp = match inp with
      | [] => onFail ci start (afterBar p q)
      | d :: t => if eqc ci d p then umatchGo ci q false start t else onFail ci start (afterBar p q) := by
  obtain ⟨h1, h2, h3, h4, h5⟩ := special_ne hp
  rw [umatchGo]
  simp only [h1, h2, h3, h4, h5, false_and, and_false, if_false, Bool.false_eq_true]
  cases inp with
  | nil =>
    simp only [ne_eq, not_true_eq_false, false_and, if_false]
    cases h : afterBar p q <;> simp only [onFail]
  | cons d t =>
    simp only [ne_eq, reduceCtorEq, not_false_eq_true, List.headD_cons, List.tail_cons, true_and]
    split
    · rfl
    · cases h : afterBar p q <;> simp only [onFail]

theorem go_open (ci : Bool) (q start inp : List Char) : umatchGo ci ('{' :: q) false start inp = umatchGo ci q true start inp := by
  rw [umatchGo]
  simp

theorem go_close (ci : Bool) (q start inp : List Char) : umatchGo ci ('}' :: q) true start inp = umatchGo ci q false start inp := by
  rw [umatchGo]
  simp

theorem go_opt (ci : Bool) (w q start inp : List Char) (hw : ∀ c ∈ w, special c = false) :
    umatchGo ci (w ++ '}' :: q) true start inp = umatchGo ci q false start (optDrop ci w inp) := by
  induction w generalizing inp with
  | nil => rw [List.nil_append, go_close]; rfl
  | cons p w ih =>
    obtain ⟨h1, h2, h3, h4, h5⟩ := special_ne (hw p (by simp))
    have hdrop : (w ++ '}' :: q).dropWhile (fun x => decide (x ≠ '}')) = '}' :: q := by
      rw [List.dropWhile_append_of_pos]
      · simp
      · intro c hc
        have := (special_ne (hw c (by simp [hc]))).2.2.1
        simpa using this
    rw [List.cons_append, umatchGo]
    simp only [h1, h2, h3, h4, h5, false_and, and_false, if_false, Bool.true_eq_false, true_and]
    cases inp with
    | nil =>
      simp only [ne_eq, not_true_eq_false, false_and, if_false]
      rw [if_pos (by trivial), if_pos (by simp)]
      rw [show (fun x => decide ¬x = '}') = (fun x => decide (x ≠ '}')) from rfl, hdrop, go_close]
      rfl
    | cons d t =>
      simp only [ne_eq, reduceCtorEq, not_false_eq_true, List.headD_cons, List.tail_cons, true_and, optDrop]
      split
      · exact ih _ fun c hc => hw c (by simp [hc])
      · rw [if_pos (by trivial), if_pos (by simp)]
        rw [show (fun x => decide ¬x = '}') = (fun x => decide (x ≠ '}')) from rfl, hdrop, go_close]

theorem toLower_space (c : Char) (h : c.toLower = ' ') : c = ' ' := by
  unfold Char.toLower at h
  split at h
  · rename_i hc
    exfalso
    have := congrArg Char.toNat h
    simp only [Char.toNat] at this
    have h2 : (c.val + 32).toNat = 32 := this
    have h3 : 65 ≤ c.val.toNat ∧ c.val.toNat ≤ 90 := by
      exact ⟨UInt32.le_iff_toNat_le.mp hc.1, UInt32.le_iff_toNat_le.mp hc.2⟩
    rw [UInt32.toNat_add] at h2
    have h4 : (32 : UInt32).toNat = 32 := rfl
    rw [h4] at h2
    omega
  · exact h

theorem eqc_blank (ci : Bool) (d : Char) (h : eqc ci d ' ' = true) : d = ' ' := by
  unfold eqc at h
  simp only [Bool.or_eq_true, beq_iff_eq, Bool.and_eq_true] at h
  rcases h with h | ⟨_, h⟩
  · exact h
  · exact toLower_space d h

theorem go_delim (ci : Bool) (q start inp : List Char) :
    umatchGo ci (' ' :: q) false start inp =
      if isTerm inp then umatchGo ci q false start (skipbl inp) else onFail ci start (afterBar ' ' q) := by
  rw [umatchGo]
  simp only [show ((' ' : Char) = '|') = False by simp, show ((' ' : Char) = '\\') = False by simp, show ((' ' : Char) = '{') = False by simp,
    show ((' ' : Char) = '}') = False by simp, false_and, and_false, if_false, true_and, Bool.false_eq_true]
  split
  · rfl
  · rename_i hterm
    cases inp with
    | nil => exact absurd rfl hterm
    | cons d t =>
      have hne : ¬ eqc ci d ' ' = true := fun h => hterm (by rw [eqc_blank ci d h]; rfl)
      simp only [ne_eq, reduceCtorEq, not_false_eq_true, List.headD_cons, true_and]
      rw [if_neg hne]
      cases h : afterBar ' ' q <;> simp only [onFail]

theorem segText_chars (l : List Seg) (h : ∀ s ∈ l, s.wf = true) : ∀ c ∈ segText l, c ≠ '|' ∧ c ≠ '\\' := by
  intro c hc
  unfold segText at hc
  rw [List.mem_flatMap] at hc
  obtain ⟨s, hs, hc⟩ := hc
  have hw := h s hs
  cases s with
  | lit d =>
    simp only [Seg.text, List.mem_singleton] at hc
    subst hc
    have := special_ne (by simpa [Seg.wf] using hw)
    exact ⟨this.2.2.2.1, this.1⟩
  | opt w =>
    simp only [Seg.text, List.mem_cons, List.mem_append, List.not_mem_nil, or_false] at hc
    rcases hc with rfl | hc | rfl
    · decide
    · simp only [Seg.wf, List.all_eq_true] at hw
      have := special_ne (by simpa using hw c hc)
      exact ⟨this.2.2.2.1, this.1⟩
    · decide
  | delim =>
    simp only [Seg.text, List.mem_singleton] at hc
    subst hc; decide

/-- what follows an alternative in the pattern: nothing, or a bar and more -/
def tailText : Option (List Char) → List Char
  | none => []
  | some more => '|' :: more

theorem afterBar_tail (p : Char) (t : List Char) (tail : Option (List Char)) (h : ∀ c ∈ p :: t, c ≠ '|' ∧ c ≠ '\\') :
    afterBar p (t ++ tailText tail) = tail := by
  cases tail with
  | none =>
    rw [tailText, List.append_nil]
    exact afterBar_none p t fun c hc => (h c (by simp [hc])).1
  | some more => exact afterBar_some p t more (fun c hc => (h c (by simp [hc])).1) fun c hc => (h c hc).2

theorem go_segs (ci : Bool) (l : List Seg) (tail : Option (List Char)) (start inp : List Char) (h : ∀ s ∈ l, s.wf = true) :
    umatchGo ci (segText l ++ tailText tail) false start inp =
      match segMatch ci l inp with
      | some r => .ok r
      | none => onFail ci start tail := by
  induction l generalizing inp with
  | nil =>
    simp only [segText, List.flatMap_nil, List.nil_append, segMatch]
    cases tail with
    | none => rw [tailText, umatchGo]
    | some more => rw [tailText, umatchGo, if_pos rfl]
  | cons s l ih =>
    have hl : ∀ s ∈ l, s.wf = true := fun x hx => h x (by simp [hx])
    have hs := h s (by simp)
    have htext : segText (s :: l) ++ tailText tail = s.text ++ (segText l ++ tailText tail) := by
      simp [segText, List.flatMap_cons]
    have hchars := segText_chars (s :: l) h
    rw [htext]
    cases s with
    | lit c =>
      have hc : special c = false := by simpa [Seg.wf] using hs
      have hbar : afterBar c (segText l ++ tailText tail) = tail := afterBar_tail c _ tail fun d hd => hchars d (by
        simpa [segText, List.flatMap_cons, Seg.text] using hd)
      simp only [Seg.text, List.singleton_append]
      rw [go_lit ci c _ start inp hc, hbar]
      cases inp with
      | nil => simp only [segMatch]
      | cons d t =>
        simp only [segMatch]
        split
        · rw [ih t hl]
        · rfl
    | opt w =>
      have hw : ∀ c ∈ w, special c = false := by
        intro c hc
        simp only [Seg.wf, List.all_eq_true] at hs
        simpa using hs c hc
      have e : Seg.text (.opt w) ++ (segText l ++ tailText tail) = '{' :: (w ++ '}' :: (segText l ++ tailText tail)) := by
        simp [Seg.text]
      rw [e, go_open, go_opt ci w _ start inp hw, ih _ hl]
      rfl
    | delim =>
      have hbar : afterBar ' ' (segText l ++ tailText tail) = tail := afterBar_tail ' ' _ tail fun d hd => hchars d (by
        simpa [segText, List.flatMap_cons, Seg.text] using hd)
      simp only [Seg.text, List.singleton_append]
      rw [go_delim, hbar]
      simp only [segMatch]
      split
      · rw [ih _ hl]
      · rfl

theorem go_alts (ci : Bool) (alts : List (List Seg)) (hne : alts ≠ []) (h : ∀ a ∈ alts, ∀ s ∈ a, s.wf = true) (start : List Char) :
    umatchGo ci (altText alts) false start start = match firstMatch ci alts start with
      | some r => .ok r
      | none => .fail := by
  induction alts with
  | nil => exact absurd rfl hne
  | cons a alts ih =>
    cases alts with
    | nil =>
      have e : altText [a] = segText a ++ tailText none := by simp [altText, tailText]
      rw [e, go_segs ci a none start start (h a (by simp))]
      unfold firstMatch
      simp only [List.findSome?_cons, List.findSome?_nil]
      cases segMatch ci a start <;> rfl
    | cons b r =>
      have e : altText (a :: b :: r) = segText a ++ tailText (some (altText (b :: r))) := rfl
      rw [e, go_segs ci a _ start start (h a (by simp))]
      have ih' := ih (by simp) (fun x hx => h x (by simp at hx ⊢; exact Or.inr hx))
      unfold firstMatch at ih' ⊢
      rw [List.findSome?_cons]
      cases segMatch ci a start with
      | some x => rfl
      | none => simp only [onFail]; rw [ih']

/-- **C43, alternatives (partial: no leading blanks).** Any well formed pattern, any text that does not begin with a blank: the match
is that of the first matching alternative, followed by blanks and at most one comma; otherwise nothing is consumed. -/
theorem umatch_first_partial (ci : Bool) (alts : List (List Seg)) (hne : alts ≠ []) (h : ∀ a ∈ alts, ∀ s ∈ a, s.wf = true)
    (start : List Char) (hs : skipbl start = start) :
    umatch ci (altText alts) start = match firstMatch ci alts start with
      | some r => .ok (skipcom r)
      | none => .fail := by
  unfold umatch
  rw [hs, go_alts ci alts hne h]
  cases firstMatch ci alts start <;> rfl

/-- **C43, one alternative**: leading blanks are no matter. -/
theorem umatch_single (ci : Bool) (a : List Seg) (h : ∀ s ∈ a, s.wf = true) (start : List Char) :
    umatch ci (segText a) start = match segMatch ci a (skipbl start) with
      | some r => .ok (skipcom r)
      | none => .fail := by
  unfold umatch
  have e : segText a = segText a ++ tailText none := by simp [tailText]
  rw [e, go_segs ci a none start _ h]
  cases segMatch ci a (skipbl start) <;> rfl

/-- **C43 fails for text with leading blanks**: `  b` is not accepted by `a |b `, although `b` is, and `  a` is. -/
theorem umatch_blank_alternative_wrong :
    umatch false "a |b ".toList "  b".toList = .fail ∧ umatch false "a |b ".toList "b".toList = .ok [] ∧
    umatch false "a |b ".toList "  a".toList = .ok [] := by
  have h1 : ∀ s ∈ [Seg.lit 'a', Seg.delim], s.wf = true := by decide
  have h2 : ∀ s ∈ [Seg.lit 'b', Seg.delim], s.wf = true := by decide
  have key : ∀ start inp, umatchGo false "a |b ".toList false start inp =
      match segMatch false [.lit 'a', .delim] inp with
      | some r => .ok r
      | none => match segMatch false [.lit 'b', .delim] start with
        | some r => .ok r
        | none => .fail := by
    intro start inp
    have e : "a |b ".toList = segText [.lit 'a', .delim] ++ tailText (some (segText [.lit 'b', .delim] ++ tailText none)) := by decide
    rw [e, go_segs _ _ _ _ _ h1]
    cases segMatch false [.lit 'a', .delim] inp with
    | some r => rfl
    | none =>
      simp only [onFail]
      rw [go_segs _ _ _ _ _ h2]
      cases segMatch false [.lit 'b', .delim] start <;> rfl
  unfold umatch
  rw [key, key, key]
  decide

/-- **an unclosed optional part reads past the end of the pattern** -/
theorem umatch_unclosed_ub : umatch false "a{b".toList "ac".toList = .ub := by
  have e1 : umatchGo false "a{b".toList false "ac".toList "ac".toList = .ub := by
    have : "a{b".toList = 'a' :: '{' :: ['b'] := by decide
    rw [this, go_lit _ _ _ _ _ (by decide)]
    simp only [show "ac".toList = ['a', 'c'] by decide]
    rw [if_pos (by decide), go_open, umatchGo]
    decide
  unfold umatch
  have : skipbl "ac".toList = "ac".toList := by decide
  rw [this, e1]

/-! Keywords, declaratively. -/

/-- same length, characters equal up to case if so set -/
def Same (ci : Bool) (a b : List Char) : Prop := List.Forall₂ (fun x y => eqc ci x y = true) a b

theorem isTerm_not_upper (c : Char) (h : isTermChar c = true) : c.toLower = c := by
  unfold Char.toLower
  split
  · rename_i hc
    exfalso
    have h3 : 65 ≤ c.toNat ∧ c.toNat ≤ 90 := ⟨UInt32.le_iff_toNat_le.mp hc.1, UInt32.le_iff_toNat_le.mp hc.2⟩
    simp only [isTermChar, isSpace, Bool.or_eq_true, beq_iff_eq, Bool.and_eq_true, decide_eq_true_eq] at h
    rcases h with ((((((h | h) | h) | h) | h) | h) | h) | h
    · omega
    all_goals (subst h; revert h3; decide)
  · rfl

theorem toLower_eq_term (c d : Char) (hd : isTermChar d = true) (h : c.toLower = d) : c = d := by
  unfold Char.toLower at h
  split at h
  · rename_i hc
    exfalso
    have h3 : 65 ≤ c.val.toNat ∧ c.val.toNat ≤ 90 := ⟨UInt32.le_iff_toNat_le.mp hc.1, UInt32.le_iff_toNat_le.mp hc.2⟩
    have h2 : (c.val + 32).toNat = d.toNat := congrArg Char.toNat h
    rw [UInt32.toNat_add, show (32 : UInt32).toNat = 32 from rfl] at h2
    simp only [isTermChar, isSpace, Bool.or_eq_true, beq_iff_eq, Bool.and_eq_true, decide_eq_true_eq] at hd
    have h5 : d.toNat = c.val.toNat + 32 := by rw [← h2]; omega
    rcases hd with ((((((h | h) | h) | h) | h) | h) | h) | h
    · omega
    all_goals
      have h6 : d.toNat ≤ 96 ∨ 123 ≤ d.toNat := by rw [h]; decide
      omega
  · exact h

theorem eqc_term (ci : Bool) (d c : Char) (h : eqc ci d c = true) (hd : isTermChar d = true) : c = d := by
  unfold eqc at h
  simp only [Bool.or_eq_true, beq_iff_eq, Bool.and_eq_true] at h
  rcases h with h | ⟨_, h⟩
  · exact h.symm
  · rw [isTerm_not_upper d hd] at h
    exact toLower_eq_term c d hd h.symm

theorem segMatch_lits (ci : Bool) (m : List Char) (r : List Seg) (inp x : List Char) :
    segMatch ci (m.map .lit ++ r) inp = some x ↔ ∃ m' rest, inp = m' ++ rest ∧ Same ci m' m ∧ segMatch ci r rest = some x := by
  induction m generalizing inp with
  | nil =>
    simp only [List.map_nil, List.nil_append]
    constructor
    · intro h; exact ⟨[], inp, rfl, .nil, h⟩
    · rintro ⟨m', rest, e, hs, h⟩; cases hs; simpa [e] using h
  | cons c m ih =>
    simp only [List.map_cons, List.cons_append]
    cases inp with
    | nil =>
      simp only [segMatch]
      constructor
      · intro h; cases h
      · rintro ⟨m', rest, e, hs, h⟩; cases hs; cases e
    | cons d t =>
      simp only [segMatch]
      constructor
      · intro h
        split at h
        · rename_i hd
          obtain ⟨m', rest, e, hs, h'⟩ := (ih t).mp h
          exact ⟨d :: m', rest, by rw [e]; rfl, .cons hd hs, h'⟩
        · cases h
      · rintro ⟨m', rest, e, hs, h⟩
        cases hs with
        | cons hd hs =>
          rename_i d' m''
          cases e
          rw [if_pos hd]
          exact (ih _).mpr ⟨m'', rest, rfl, hs, h⟩

theorem optDrop_term (ci : Bool) (o inp : List Char) (ho : ∀ c ∈ o, isTermChar c = false) (x : List Char) :
    (isTerm (optDrop ci o inp) = true ∧ optDrop ci o inp = x) ↔
      ∃ o' p, inp = o' ++ x ∧ p <+: o ∧ Same ci o' p ∧ isTerm x = true := by
  induction o generalizing inp with
  | nil =>
    simp only [optDrop]
    constructor
    · rintro ⟨h, rfl⟩; exact ⟨[], [], rfl, List.prefix_refl _, .nil, h⟩
    · rintro ⟨o', p, e, hp, hs, h⟩
      rw [List.prefix_nil] at hp; subst hp; cases hs
      rw [List.nil_append] at e; subst e; exact ⟨h, rfl⟩
  | cons c o ih =>
    cases inp with
    | nil =>
      simp only [optDrop]
      constructor
      · rintro ⟨h, rfl⟩; exact ⟨[], [], rfl, List.nil_prefix, .nil, h⟩
      · rintro ⟨o', p, e, hp, hs, h⟩
        have : x = [] := by
          cases x with
          | nil => rfl
          | cons a x => simp at e
        subst this; exact ⟨rfl, rfl⟩
    | cons d t =>
      simp only [optDrop]
      have hct := ho c (by simp)
      by_cases hd : eqc ci d c = true
      · rw [if_pos hd]
        have := ih t (fun y hy => ho y (by simp [hy]))
        rw [this]
        constructor
        · rintro ⟨o', p, e, hp, hs, h⟩
          exact ⟨d :: o', c :: p, by rw [e]; rfl, List.cons_prefix_cons.mpr ⟨rfl, hp⟩, .cons hd hs, h⟩
        · rintro ⟨o', p, e, hp, hs, h⟩
          cases hs with
          | nil =>
            rw [List.nil_append] at e
            subst e
            exfalso
            have : isTermChar d = true := h
            have e := eqc_term ci d c hd this
            subst e
            rw [hct] at this; cases this
          | cons hd' hs =>
            rename_i d' c' o'' p'
            cases e
            rw [List.cons_prefix_cons] at hp
            exact ⟨o'', p', rfl, hp.2, hs, h⟩
      · rw [if_neg hd]
        constructor
        · rintro ⟨h, rfl⟩; exact ⟨[], [], rfl, List.nil_prefix, .nil, h⟩
        · rintro ⟨o', p, e, hp, hs, h⟩
          cases hs with
          | nil => rw [List.nil_append] at e; subst e; exact ⟨h, rfl⟩
          | cons hd' hs =>
            rename_i d' c' o'' p'
            cases e
            rw [List.cons_prefix_cons] at hp
            rw [hp.1] at hd'
            exact absurd hd' hd

/-- **C43, keywords.** The pattern `mand{opt} ` accepts exactly the texts made of (blanks and) the mandatory part, any beginning of
the optional part and then a delimiter or the end, case as set; what follows is left, less blanks and one comma. -/
theorem keyword_accepts (ci : Bool) (mand o : List Char) (hm : ∀ c ∈ mand, special c = false) (ho : ∀ c ∈ o, special c = false)
    (ht : ∀ c ∈ o, isTermChar c = false) (start out : List Char) :
    umatch ci (mand ++ '{' :: o ++ ['}', ' ']) start = .ok out ↔
      ∃ m o' p rest, skipbl start = m ++ o' ++ rest ∧ Same ci m mand ∧ p <+: o ∧ Same ci o' p ∧ isTerm rest = true ∧
        out = skipcom (skipbl rest) := by
  have e : mand ++ '{' :: o ++ ['}', ' '] = segText (mand.map .lit ++ [.opt o, .delim]) := by
    simp only [segText, List.flatMap_append, List.flatMap_cons, List.flatMap_nil, Seg.text, List.flatMap_map]
    simp [List.flatMap_singleton']
  have hwf : ∀ s ∈ mand.map Seg.lit ++ [.opt o, .delim], s.wf = true := by
    intro s hs
    rcases List.mem_append.mp hs with hs | hs
    · obtain ⟨c, hc, rfl⟩ := List.mem_map.mp hs
      simp [Seg.wf, hm c hc]
    · simp only [List.mem_cons, List.not_mem_nil, or_false] at hs
      rcases hs with rfl | rfl
      · simp only [Seg.wf, List.all_eq_true]; intro c hc; simp [ho c hc]
      · rfl
  rw [e, umatch_single ci _ hwf]
  have key : ∀ y, segMatch ci (mand.map Seg.lit ++ [.opt o, .delim]) (skipbl start) = some y ↔
      ∃ m o' p rest, skipbl start = m ++ o' ++ rest ∧ Same ci m mand ∧ p <+: o ∧ Same ci o' p ∧ isTerm rest = true ∧ y = skipbl rest := by
    intro y
    rw [segMatch_lits]
    constructor
    · rintro ⟨m, rest, e1, hs, h⟩
      simp only [segMatch] at h
      split at h
      · rename_i hterm
        obtain ⟨o', p, e2, hp, hs2, h2⟩ := (optDrop_term ci o rest ht _).mp ⟨hterm, rfl⟩
        refine ⟨m, o', p, _, ?_, hs, hp, hs2, h2, ?_⟩
        · rw [e1, List.append_assoc]; exact congrArg (m ++ ·) e2
        · simpa using h.symm
      · cases h
    · rintro ⟨m, o', p, rest, e1, hs, hp, hs2, h2, rfl⟩
      refine ⟨m, o' ++ rest, by rw [e1, List.append_assoc], hs, ?_⟩
      obtain ⟨h3, h4⟩ := (optDrop_term ci o (o' ++ rest) ht rest).mpr ⟨o', p, rfl, hp, hs2, h2⟩
      simp only [segMatch]
      rw [if_pos h3, h4]
  constructor
  · intro h
    cases hseg : segMatch ci (mand.map Seg.lit ++ [.opt o, .delim]) (skipbl start) with
    | none => rw [hseg] at h; cases h
    | some y =>
      rw [hseg] at h
      obtain ⟨m, o', p, rest, e1, hs, hp, hs2, h2, rfl⟩ := (key y).mp hseg
      refine ⟨m, o', p, rest, e1, hs, hp, hs2, h2, ?_⟩
      simpa using h.symm
  · rintro ⟨m, o', p, rest, e1, hs, hp, hs2, h2, rfl⟩
    have := (key (skipbl rest)).mpr ⟨m, o', p, rest, e1, hs, hp, hs2, h2, rfl⟩
    rw [this]

example : umatch true "tr{ansient} ".toList "  TRAN 1 2".toList = .ok "1 2".toList := by
  have e : "tr{ansient} ".toList = "tr".toList ++ '{' :: "ansient".toList ++ ['}', ' '] := by decide
  rw [e]
  refine (keyword_accepts true _ _ (by decide) (by decide) (by decide) _ _).mpr
    ⟨"TR".toList, "AN".toList, "an".toList, " 1 2".toList, by decide, ?_, by decide, ?_, by decide, by decide⟩
  · exact .cons (by decide) (.cons (by decide) .nil)
  · exact .cons (by decide) (.cons (by decide) .nil)

end Gnucap.Scan
