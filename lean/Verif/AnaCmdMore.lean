import Verif.AnaCmdProps

/-!
# More about the lines of AC, OP and DC (C88): expressions, words alone, what is swept
-/
set_option linter.unusedSimpArgs false
namespace Gnucap.AnaCmd
open Gnucap.Scan Gnucap.Spice Gnucap.Num

/-! ## Expressions -/

/-- the ways to write an expression -/
def Brackets (o c : Char) : Prop := o = '\'' ∧ c = '\'' ∨ o = '{' ∧ c = '}' ∨ o = '"' ∧ c = '"'

/-- text between brackets: not empty, no bracket, no backslash, not `NA` -/
structure Inside (o c : Char) (t : List Char) : Prop where
  ne : t ≠ []
  na : t ≠ ['N', 'A']
  chars : ∀ x ∈ t, x ≠ c ∧ x ≠ o ∧ x ≠ '\\'

theorem brackets_arg {o c : Char} (h : Brackets o c) (s : List Char) : isArg (o :: s) = true := by
  rcases h with ⟨rfl, rfl⟩ | ⟨rfl, rfl⟩ | ⟨rfl, rfl⟩ <;> rfl

/-- an expression is read as it stands -/
theorem parse_expression (u : Units) (ci : Bool) (old : Param) {o c : Char} (h : Brackets o c) {t : List Char} (ht : Inside o c t) (rest : List Char)
    (hp : match1 ['('] (skipcom rest) = false) : parse u ci old (o :: (t ++ c :: rest)) = some (.text t, skipcom rest) := by
  have hg : isGraph o = true ∧ isFloat o = false ∧ eqc ci o 'N' = false ∧ o ≠ ',' ∧ quotes.lookup o = some c := by
    rcases h with ⟨rfl, rfl⟩ | ⟨rfl, rfl⟩ | ⟨rfl, rfl⟩ <;> cases ci <;> decide
  obtain ⟨hg, hf, hn, hcom, hq⟩ := hg
  have h1 : ctof u (o :: (t ++ c :: rest)) = .none (o :: (t ++ c :: rest)) := by
    have e1 : skipbl (o :: (t ++ c :: rest)) = o :: (t ++ c :: rest) := skipbl_cons _ hg
    rw [ctof_not_number u _ (by rw [e1]; intro d hd; cases hd; exact hf), e1, (show Next (o :: (t ++ c :: rest)) from .inr ⟨o, _, rfl, hg, hcom⟩).skipcom]
  have h2 : ctos [',', '=', '(', ')', ';'] quotes (o :: (t ++ c :: rest)) = (t, skipcom rest) := by
    unfold ctos
    simp only [skipbl_cons _ hg, hq, quoted_plain o c t rest ht.chars]
  unfold parse
  rw [na_fails ci _ hg hn, h1]
  simp only [h2, if_neg ht.ne, hp, Bool.false_eq_true, if_false, if_neg ht.na]

/-- **C88, expressions**: OP and AC with one expression have it as start and stop, whatever the brackets. -/
theorem numbers_expression (third : Bool) (e : Env) (st : St) {o c : Char} (h : Brackets o c) {t : List Char} (ht : Inside o c t) :
    numbers third e st (o :: (t ++ [c])) = some ({ st with start := .text t, stop := .text t }, []) := by
  unfold numbers
  rw [brackets_arg h, if_pos rfl, parse_expression e.units e.ci st.start h ht [] rfl]
  simp [isArg, skipcom, skipbl]

/-- and with two the first is the start, the second the stop -/
theorem numbers_expressions (third : Bool) (e : Env) (st : St) {o c o' c' : Char} (h : Brackets o c) (h' : Brackets o' c') {t t' : List Char} (ht : Inside o c t)
    (ht' : Inside o' c' t') :
    numbers third e st (o :: (t ++ c :: ' ' :: o' :: (t' ++ [c']))) = some ({ st with start := .text t, stop := .text t' }, []) := by
  have hn : skipcom (' ' :: o' :: (t' ++ [c'])) = o' :: (t' ++ [c']) ∧ o' ≠ '(' := by
    have e1 : skipcom (' ' :: o' :: (t' ++ [c'])) = skipcom (o' :: (t' ++ [c'])) := by unfold skipcom; rw [skipbl_blank]
    rw [e1]
    rcases h' with ⟨rfl, rfl⟩ | ⟨rfl, rfl⟩ | ⟨rfl, rfl⟩
    · exact ⟨(show Next ('\'' :: (t' ++ ['\''])) from .inr ⟨_, _, rfl, by decide, by decide⟩).skipcom, by decide⟩
    · exact ⟨(show Next ('{' :: (t' ++ ['}'])) from .inr ⟨_, _, rfl, by decide, by decide⟩).skipcom, by decide⟩
    · exact ⟨(show Next ('"' :: (t' ++ ['"'])) from .inr ⟨_, _, rfl, by decide, by decide⟩).skipcom, by decide⟩
  have hp : match1 ['('] (skipcom (' ' :: o' :: (t' ++ [c']))) = false := by
    rw [hn.1]; simp [match1, hn.2]
  unfold numbers
  rw [brackets_arg h, if_pos rfl, parse_expression e.units e.ci st.start h ht _ hp]
  simp only [Option.bind_some, hn.1]
  rw [brackets_arg h', if_pos rfl, parse_expression e.units e.ci st.stop h' ht' [] rfl]
  simp [isArg, skipcom, skipbl]

example : numbers false ⟨.spice, true, 27, id⟩ ⟨.unset, .unset, .unset, .linStep, 0, fun _ => false, .none⟩ ['{', 'a', '}', ' ', '\'', 'b', '\''] =
    some (⟨.text ['a'], .text ['b'], .unset, .linStep, 0, fun _ => false, .none⟩, []) :=
  numbers_expressions false _ _ (.inr (.inl ⟨rfl, rfl⟩)) (.inl ⟨rfl, rfl⟩) (t := ['a']) (t' := ['b']) ⟨by simp, by simp, by simp⟩ ⟨by simp, by simp, by simp⟩

theorem parse_paren (u : Units) (ci : Bool) (old : Param) (r : List Char) : parse u ci old ('(' :: r) = some (old, '(' :: r) := by
  have hg : isGraph '(' = true := by decide
  have hs : skipcom ('(' :: r) = '(' :: r := (show Next ('(' :: r) from .inr ⟨_, _, rfl, hg, by decide⟩).skipcom
  have h1 : ctof u ('(' :: r) = .none ('(' :: r) := by
    rw [ctof_not_number u _ (by rw [skipbl_cons _ hg]; intro d hd; cases hd; decide), skipbl_cons _ hg, hs]
  have h2 : ctos [',', '=', '(', ')', ';'] quotes ('(' :: r) = ([], '(' :: r) := by
    unfold ctos
    simp only [skipbl_cons _ hg, show quotes.lookup '(' = none from rfl]
    rw [List.takeWhile_cons_of_neg (by decide), List.dropWhile_cons_of_neg (by decide), hs]
  unfold parse
  rw [na_fails ci _ hg (by cases ci <;> decide), h1]
  simp only [h2, if_true]

/-- **C88, a defect**: a parenthesis is taken for the beginning of an argument (apps/s_ac.cc:135, apps/s_dc.cc:253), but nothing
reads it: range and step stay what they were, the text stays where it is, and for AC the steps become linear. -/
theorem paren_wrong (third : Bool) (e : Env) (st : St) (r : List Char) :
    numbers third e st ('(' :: r) = some ({ st with mode := if third then .linStep else st.mode }, '(' :: r) := by
  unfold numbers
  rw [show isArg ('(' :: r) = true from rfl, if_pos rfl, parse_paren]
  simp only [Option.bind_some, show isArg ('(' :: r) = true from rfl, if_true, parse_paren]
  cases third <;> simp [show isArg ('(' :: r) = true from rfl, parse_paren]

/-! ## Words alone -/

theorem parse_nothing (u : Units) (ci : Bool) (old : Param) : parse u ci old [] = some (old, []) := by
  unfold parse
  rw [Opt.umatch_sound _ _ _ na_sound]
  rfl

/-- what a word for a number does at the end of a line -/
def Act.alone (st : St) : Act → Option St
  | .step m => some { st with mode := m }
  | .start => some st
  | .stop => some st
  | _ => none

/-- **C88, a word without its number**: at the end of the line it leaves the number as it was; a word for steps still sets the mode. -/
theorem word_alone {table : List (List Char × Act)} {ns : Names} (hf : Fits table ns) (e : Env) (st st' : St) (w : List Char) (a : Act)
    (hm : meant ns w = some a) (ha : a.alone st = some st') : tryAll e st w table = some (st', []) := by
  have := tryAll_word hf e st w [] a hm rfl
  rw [List.append_nil] at this
  rw [this]
  cases a with
  | step m => cases ha; simp [Act.run, behind, parse_nothing, skipcom, skipbl, optDrop]
  | start => cases ha; simp [Act.run, behind, parse_nothing, skipcom, skipbl, optDrop]
  | stop => cases ha; simp [Act.run, behind, parse_nothing, skipcom, skipbl, optDrop]
  | dtemp => cases ha
  | temp => cases ha
  | flag f => cases ha
  | trace => cases ha

example (e : Env) (st : St) : tryAll e st ['o', 'c', 't', 'a', 'v', 'e'] acTable = some ({ st with mode := .octave }, []) :=
  word_alone ac_fits e st _ _ (.step .octave) (by decide +kernel) rfl

/-! ## What DC sweeps -/

/-- **C88, DC again**: a line with nothing on it repeats the sweeps as they are. -/
theorem dc_again (e : Env) (k : Ckt) (d : Dc) : ∃ d', dc e k d [] = .done d' [] ∧ d'.lev = d.lev ∧ d'.n = d.n ∧ d'.temp = e.optTemp :=
  ⟨_, rfl, rfl, rfl, rfl⟩

/-- **C88, no element**: a card that is found but is not an element cannot be swept; the command ends there. -/
theorem dc_card (e : Env) (k : Ckt) (d : Dc) (s : List Char) (hs : Next s) (hne : s ≠ []) (i : ℕ) (r : List Char) (h : k.find s = some (false, i, r)) :
    dc e k d s = .cantSweep := by
  unfold dc
  simp only [hs.skipbl, if_neg hne, levels]
  unfold level target
  simp only [h]

/-- **C88, numbers alone**: a line of DC without a name has the range in its numbers, and takes no element for what is swept. -/
theorem dc_numbers (e : Env) (k : Ckt) (ho : e.outset [] = []) (d : Dc) (a b : Numeral) (ha : a.Wf) (hb : b.Wf)
    (hk : k.find (a.text ++ ' ' :: b.text) = none) :
    ∃ d', dc e k d (a.text ++ ' ' :: b.text) = .done d' [] ∧ d'.n = 1 ∧ (d'.lev 0).start = .num (a.value e.units) ∧
      (d'.lev 0).stop = .num (b.value e.units) ∧ (d'.lev 0).stepIn = (d.lev 0).stepIn ∧ (d'.lev 0).mode = (d.lev 0).mode ∧
      (d'.lev 0).target.zap = none := by
  have hbf : Follows b.text := by simpa using numeral_follows b hb []
  have haf := numeral_follows a ha (' ' :: b.text)
  have hbn : b.text ≠ [] := by
    intro he
    obtain ⟨c, r, ec, -⟩ := b.head hb []
    rw [he] at ec
    cases ec
  obtain ⟨c, r, ec, hc, hg, -⟩ := numeral_head a ha (' ' :: b.text)
  have hsk : skipbl (a.text ++ ' ' :: b.text) = a.text ++ ' ' :: b.text := haf.next.skipbl
  have hne : a.text ++ ' ' :: b.text ≠ [] := by simp
  have ht : target k (a.text ++ ' ' :: b.text) = some (.number, a.text ++ ' ' :: b.text) := by
    unfold target
    rw [hk]
    simp only
    rw [ec]
    simp [isFloatHead, hc]
  have hA : isArg (a.text ++ ' ' :: b.text) = true := by rw [ec]; exact isArg_float hc r
  have hr : ∀ st, range e st (a.text ++ ' ' :: b.text) = some ({ st with start := .num (a.value e.units), stop := .num (b.value e.units) }, []) := by
    intro st
    unfold range
    rw [hA, if_pos rfl, ← gap_ne hbn, parse_numeral _ _ _ a ha _ (stops_gap _), skipcom_gap hbf]
    simp only [Option.bind_some]
    have := parse_numeral e.units e.ci .unset b hb [] (by intro c hc; cases hc)
    rw [List.append_nil] at this
    rw [this]
    rfl
  have hopt : ∀ st, options true dcTable e st [] = .done st [] := by
    intro st
    have := options_items dc_fits true e [] ⟨.inl rfl, by simp⟩ ((Tail.nil ho).left dc_fits dc_written dc_ne true) [] st (by simp)
    simpa [lineText] using this
  refine ⟨?w, ?a, ?b⟩
  case a =>
    unfold dc
    simp only
    rw [hsk, if_neg hne, levels, hsk, if_neg hne, level, ht]
    simp only [hr, hopt]
    rw [levels]
    simp only [skipbl, if_true]
    rfl
  case b => simp [Dc.put, Dc.st, Sweep.choose]

/-- **C88, a step alone**: a line of DC that begins with a step (here `*`) changes the step of the first level and keeps what is swept
and its range. -/
theorem dc_times (e : Env) (k : Ckt) (ho : e.outset [] = []) (d : Dc) (n : Numeral) (hn : n.Wf) (hk : k.find ('*' :: ' ' :: n.text) = none) :
    ∃ d', dc e k d ('*' :: ' ' :: n.text) = .done d' [] ∧ d'.n = 1 ∧ (d'.lev 0).start = (d.lev 0).start ∧ (d'.lev 0).stop = (d.lev 0).stop ∧
      (d'.lev 0).stepIn = .num (n.value e.units) ∧ (d'.lev 0).mode = .times ∧ (d'.lev 0).target = (d.lev 0).target := by
  have hsk : skipbl ('*' :: ' ' :: n.text) = '*' :: ' ' :: n.text := skipbl_cons _ (by decide)
  have hne : '*' :: ' ' :: n.text ≠ [] := by simp
  have ht : target k ('*' :: ' ' :: n.text) = some (.other, '*' :: ' ' :: n.text) := by
    unfold target
    rw [hk]
    simp only [show isFloatHead ('*' :: ' ' :: n.text) = false from rfl, show isAlphaHead ('*' :: ' ' :: n.text) = false from by
      simp [isAlphaHead]; decide]
    simp
  have hr : ∀ st, range e st ('*' :: ' ' :: n.text) = some (st, '*' :: ' ' :: n.text) := by
    intro st
    unfold range
    rw [show isArg ('*' :: ' ' :: n.text) = false from rfl]
    simp
  have hm : meant dcNames ['*'] = some (.step .times) := by decide +kernel
  have hopt : ∀ st, options true dcTable e st ('*' :: ' ' :: n.text) = .done { st with stepIn := .num (n.value e.units), mode := .times } [] := by
    intro st
    have := options_items dc_fits true e [] ⟨.inl rfl, by simp⟩ ((Tail.nil ho).left dc_fits dc_written dc_ne true) [.num ['*'] false n] st (by
      intro i hi
      simp only [List.mem_singleton] at hi
      subst hi
      exact ⟨⟨_, hm, by simp, by simp⟩, hn, by simp⟩)
    simpa [lineText, Item.text, gap, Item.does, sepText, hm] using this
  refine ⟨?w, ?a, ?b⟩
  case a =>
    unfold dc
    simp only
    rw [hsk, if_neg hne, levels, hsk, if_neg hne, level, ht]
    simp only [hr, hopt]
    rw [levels]
    simp only [skipbl, if_true]
    rfl
  case b => simp [Dc.put, Dc.st, Sweep.choose]

/-! ## Examples -/

example (d : Dc) : ∃ d', dc demoEnv demoCkt d ['0', ' ', '5'] = .done d' [] ∧ (d'.lev 0).start = .num 0 ∧ (d'.lev 0).stop = .num 5 ∧ (d'.lev 0).target.zap = none := by
  obtain ⟨d', h, -, h1, h2, -, -, h3⟩ := dc_numbers demoEnv demoCkt rfl d (num [0]) (num [5]) (num_wf _ (by simp) (by simp)) (num_wf _ (by simp) (by simp)) (by decide +kernel)
  exact ⟨d', h, by rw [h1]; decide +kernel, by rw [h2]; decide +kernel, h3⟩

example (d : Dc) : ∃ d', dc demoEnv demoCkt d ['*', ' ', '2'] = .done d' [] ∧ (d'.lev 0).stepIn = .num 2 ∧ (d'.lev 0).target = (d.lev 0).target := by
  obtain ⟨d', h, -, -, -, h1, -, h2⟩ := dc_times demoEnv demoCkt rfl d (num [2]) (num_wf _ (by simp) (by simp)) (by decide +kernel)
  exact ⟨d', h, by rw [h1]; decide +kernel, h2⟩

/-- a circuit with a model `m` -/
def cardCkt : Ckt := ⟨fun s => if ['m', ' '].isPrefixOf s then some (false, 1, s.drop 2) else none, fun _ => none, fun _ => []⟩

example (d : Dc) : dc demoEnv cardCkt d ['m', ' ', '0', ' ', '5'] = .cantSweep :=
  dc_card demoEnv cardCkt d _ (.inr ⟨_, _, rfl, by decide, by decide⟩) (by simp) 1 ['0', ' ', '5'] (by decide +kernel)

end Gnucap.AnaCmd
