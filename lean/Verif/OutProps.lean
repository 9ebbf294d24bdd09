import Verif.OutModel
import Verif.LinesProps
import Mathlib.Data.List.TakeWhile
import Mathlib.Data.List.Induction

/-!
# Output (C79): theorems

Specifications: the column is the number of characters behind the last newline; what is meant for a file is the texts written, one
behind the other; a break is a newline and `+`.
-/
namespace Gnucap.Out
open Gnucap.Lines (render logical logical_cons getlines trim blank EndOk fgets)
open Gnucap.Scan (isSpace isGraph)

/-- Specification: the length of the last line -/
def column (t : List Char) : ℕ := (t.reverse.takeWhile (· ≠ '\n')).length

/-- Specification: characters that move to the next column, or begin a line -/
def Ink (c : Char) : Prop := c ≠ '\t' ∧ c ≠ '\x08' ∧ c ≠ '\r'

theorem column_snoc (t : List Char) (c : Char) : column (t ++ [c]) = if c = '\n' then 0 else column t + 1 := by
  unfold column
  rw [List.reverse_append]
  by_cases h : c = '\n' <;> simp [h]

/-- column and text go together -/
def Even (h : H) : Prop := h.cpos = column h.text

theorem putH_even (c : Char) (h : H) (hc : Ink c) (he : Even h) : Even (putH c true false h) := by
  unfold Even at *
  obtain ⟨h1, h2, h3⟩ := hc
  simp only [putH, h2, if_false, if_true, h3, or_false, Bool.false_eq_true]
  rw [column_snoc, he]

theorem putc_at (o : Om) (c : Char) (w : W) (i : ℕ) (hc : Ink c) (hp : o.pack = false) :
    (putc o c w).h i = if o.mask i then putH c true false (w.h i) else w.h i := by
  simp [putc, hp, hc.1]

theorem breakH_even (h : H) (he : Even h) : Even (breakH h) :=
  putH_even _ _ (by simp [Ink]) (putH_even _ _ (by simp [Ink]) he)

/-- a text at one place -/
def textH (s : List Char) (h : H) : H := s.foldl (fun h c => putH c true false h) h

theorem textH_text (s : List Char) (h : H) : (textH s h).text = h.text ++ s := by
  induction s generalizing h with
  | nil => simp [textH]
  | cons c s ih =>
    have := ih (putH c true false h)
    simp only [textH, List.foldl_cons] at this ⊢
    rw [this]
    simp [putH]

theorem textH_even (s : List Char) (h : H) (hs : ∀ c ∈ s, Ink c) (he : Even h) : Even (textH s h) := by
  induction s generalizing h with
  | nil => exact he
  | cons c s ih => exact ih _ (fun a ha => hs a (by simp [ha])) (putH_even c h (hs c (by simp)) he)

theorem fold_at (o : Om) (s : List Char) (w : W) (i : ℕ) (hs : ∀ c ∈ s, Ink c) (hp : o.pack = false) :
    (s.foldl (fun w c => putc o c w) w).h i = if o.mask i then textH s (w.h i) else w.h i := by
  induction s generalizing w with
  | nil => simp [textH]
  | cons c s ih =>
    rw [List.foldl_cons, ih _ (fun a ha => hs a (by simp [ha])), putc_at o c w i (hs c (by simp)) hp]
    cases o.mask i <;> simp [textH]

theorem shown_ink (s : List Char) (hs : ∀ c ∈ s, Ink c) : ∀ c ∈ shown s, Ink c := by
  intro c hc
  unfold shown at hc
  split at hc
  · exact hs c (List.dropLast_subset _ hc)
  · exact hs c hc

theorem puts_at (width : ℕ) (o : Om) (s : List Char) (w : W) (i : ℕ) (hs : ∀ c ∈ s, Ink c) (hp : o.pack = false) :
    (puts width o s w).h i =
      if o.mask i then textH (shown s) (if breaks width s (w.h i) then breakH (w.h i) else w.h i) else w.h i := by
  unfold puts
  rw [fold_at o _ _ i (shown_ink s hs) hp]
  cases h : o.mask i <;> simp [h]

theorem padH_eq (n : ℕ) (h : H) : padH n h = textH (List.replicate n ' ') h := by
  induction n generalizing h with
  | zero => rfl
  | succ n ih => rw [padH, ih, List.replicate_succ]; rfl

theorem tabH_even (n : ℕ) (h : H) (he : Even h) : Even (tabH n h) := by
  unfold tabH
  simp only
  rw [padH_eq]
  refine textH_even _ _ (fun c hc => ?_) ?_
  · rw [List.eq_of_mem_replicate hc]; simp [Ink]
  · split
    · exact putH_even _ _ (by simp [Ink]) he
    · exact he

/-- Specification: the operation writes plain characters, and spaces are not packed -/
def Proper (a : Om × Op) : Prop :=
  a.1.pack = false ∧ match a.2 with
    | .chr c => Ink c
    | .str s => ∀ c ∈ s, Ink c
    | .tab _ => True

/-- **C79, columns**: whatever is written by whom to which files, the column counted for a file is the length of its last line. -/
theorem column_kept (width : ℕ) (l : List (Om × Op)) (hl : ∀ a ∈ l, Proper a) (w : W) (hw : ∀ i, Even (w.h i)) (i : ℕ) :
    ((run width w l).h i).cpos = column ((run width w l).h i).text := by
  suffices ∀ i, Even ((run width w l).h i) from this i
  induction l generalizing w with
  | nil => exact hw
  | cons a l ih =>
    refine ih (fun b hb => hl b (by simp [hb])) _ (fun j => ?_)
    obtain ⟨o, op⟩ := a
    obtain ⟨hp, hc⟩ := hl (o, op) (by simp)
    cases op with
    | chr c =>
      simp only [step]
      rw [putc_at o c w j hc hp]
      split
      · exact putH_even c _ hc (hw j)
      · exact hw j
    | str s =>
      simp only [step]
      rw [puts_at width o s w j hc hp]
      split
      · refine textH_even _ _ (shown_ink s hc) ?_
        split
        · exact breakH_even _ (hw j)
        · exact hw j
      · exact hw j
    | tab n =>
      simp only [step, tab]
      split
      · exact tabH_even n _ (hw j)
      · exact hw j

/-- a packing object is not proper; two files, a text for one of them, a column in the other -/
example : Proper (⟨fun i => i == 1, false⟩, .str ['v', '(', '1', ')', '=']) ∧ Proper (⟨fun i => i == 2, false⟩, .tab 8) ∧ Even ⟨[], 0⟩ ∧
    Even ⟨['a', '\n', 'b'], 1⟩ := by
  refine ⟨⟨rfl, ?_⟩, ⟨rfl, trivial⟩, rfl, by unfold Even; decide⟩
  intro c hc
  simp at hc
  rcases hc with rfl | rfl | rfl | rfl | rfl <;> simp [Ink]

/-! ## Breaking lines -/

/-- Specification: what is written to place `i`, as it should be: a text that may go to a new line, or a character -/
def meant (i : ℕ) : List (Om × Op) → List (Bool × List Char)
  | [] => []
  | (o, .chr c) :: l => if o.mask i then (false, [c]) :: meant i l else meant i l
  | (o, .str s) :: l => if o.mask i then (true, shown s) :: meant i l else meant i l
  | (_, .tab _) :: l => meant i l

/-- Specification: texts one behind the other, those marked on a new line behind a `+` -/
def laid : List (Bool × List Char) → List Char
  | [] => []
  | (b, s) :: l => (if b then '\n' :: '+' :: s else s) ++ laid l

/-- no tabulators among the operations -/
def NoTab (a : Om × Op) : Prop := ∀ n, a.2 ≠ .tab n

theorem breakH_text (h : H) : (breakH h).text = h.text ++ ['\n', '+'] := by simp [breakH, putH]

/-- **C79, nothing is lost**: whatever is written by whom to which files, each file has all the texts meant for it in order, with a
newline and `+` before some of them. -/
theorem laid_out (width : ℕ) (l : List (Om × Op)) (hl : ∀ a ∈ l, Proper a ∧ NoTab a) (w : W) (i : ℕ) :
    ∃ bs : List Bool, bs.length = (meant i l).length ∧ (∀ x ∈ bs.zip (meant i l), x.1 = true → x.2.1 = true) ∧
      ((run width w l).h i).text = (w.h i).text ++ laid (bs.zip ((meant i l).map Prod.snd)) := by
  induction l generalizing w with
  | nil => exact ⟨[], rfl, by simp [meant], by simp [run, meant, laid]⟩
  | cons a l ih =>
    obtain ⟨o, op⟩ := a
    obtain ⟨⟨hp, hc⟩, hn⟩ := hl (o, op) (by simp)
    obtain ⟨bs, h1, h2, h3⟩ := ih (fun b hb => hl b (by simp [hb])) (step width w (o, op))
    have hrun : run width w ((o, op) :: l) = run width (step width w (o, op)) l := rfl
    cases op with
    | chr c =>
      simp only [step] at h3
      rw [putc_at o c w i hc hp] at h3
      cases hm : o.mask i with
      | false =>
        refine ⟨bs, by simpa [meant, hm] using h1, by simpa [meant, hm] using h2, ?_⟩
        rw [hrun]
        simpa [meant, hm, step] using h3
      | true =>
        refine ⟨false :: bs, by simpa [meant, hm] using h1, ?_, ?_⟩
        · intro x hx
          simp only [meant, hm, if_true, List.zip_cons_cons, List.mem_cons] at hx
          rcases hx with rfl | hx
          · simp
          · exact h2 x hx
        · rw [hrun]
          simp only [step]
          rw [h3]
          simp [meant, hm, laid, putH]
    | str s =>
      simp only [step] at h3
      rw [puts_at width o s w i hc hp] at h3
      cases hm : o.mask i with
      | false =>
        refine ⟨bs, by simpa [meant, hm] using h1, by simpa [meant, hm] using h2, ?_⟩
        rw [hrun]
        simpa [meant, hm, step] using h3
      | true =>
        refine ⟨breaks width s (w.h i) :: bs, by simpa [meant, hm] using h1, ?_, ?_⟩
        · intro x hx
          simp only [meant, hm, if_true, List.zip_cons_cons, List.mem_cons] at hx
          rcases hx with rfl | hx
          · simp
          · exact h2 x hx
        · rw [hrun]
          simp only [step]
          rw [h3, hm, if_pos rfl, textH_text]
          cases breaks width s (w.h i) <;> simp [meant, hm, laid, breakH_text]
    | tab n => exact absurd rfl (hn n)

example : Proper (⟨fun i => i == 1, false⟩, .chr 'x') ∧ NoTab (⟨fun i => i == 1, false⟩, .chr 'x') :=
  ⟨⟨rfl, by simp [Ink]⟩, by intro n h; cases h⟩

theorem column_text (t s : List Char) (hs : '\n' ∉ s) : column (t ++ s) = column t + s.length := by
  induction s using List.reverseRecOn with
  | nil => simp
  | append_singleton s c ih =>
    simp only [List.mem_append, List.mem_singleton, not_or] at hs
    rw [← List.append_assoc, column_snoc, if_neg (Ne.symm hs.2), ih hs.1]
    simp; omega

theorem need_le (s : List Char) : s.length ≤ need s := by
  unfold need
  split <;> omega

theorem shown_le (s : List Char) : (shown s).length ≤ s.length := by
  unfold shown
  split <;> simp

theorem shown_line (s : List Char) (hs : '\n' ∉ s) : '\n' ∉ shown s := by
  unfold shown
  split
  · exact fun h => hs (List.dropLast_subset _ h)
  · exact hs

/-- **C79, width**: a text written leaves the last line shorter than the width, unless the text alone, or behind a `+`, is as long. -/
theorem width_kept (width : ℕ) (o : Om) (s : List Char) (w : W) (i : ℕ) (hp : o.pack = false) (hs : ∀ c ∈ s, Ink c) (hn : '\n' ∉ s)
    (he : Even (w.h i)) (hm : o.mask i = true) :
    column ((puts width o s w).h i).text < width ∨
      ∃ t, ((puts width o s w).h i).text = t ++ shown s ∧ (column t = 0 ∨ column t = 1 ∧ t = (w.h i).text ++ ['\n', '+']) := by
  rw [puts_at width o s w i hs hp, hm, if_pos rfl, textH_text]
  have hlen : (shown s).length ≤ need s := (shown_le s).trans (need_le s)
  cases hb : breaks width s (w.h i) with
  | true =>
    right
    rw [if_pos rfl, breakH_text]
    refine ⟨_, rfl, .inr ⟨?_, rfl⟩⟩
    rw [show ['\n', '+'] = ['\n'] ++ ['+'] from rfl, ← List.append_assoc, column_snoc, column_snoc]
    simp
  | false =>
    simp only [Bool.false_eq_true, if_false]
    by_cases h0 : (w.h i).cpos = 0
    · exact .inr ⟨_, rfl, .inl (he ▸ h0)⟩
    · left
      rw [column_text _ _ (shown_line s hn), ← he]
      simp only [breaks, Bool.and_eq_false_iff, decide_eq_false_iff_not, not_not] at hb
      rcases hb with hb | hb
      · omega
      · exact absurd hb h0

/-- Specification: the room to be kept for what must stay with a text -/
def room (s : List Char) : ℕ :=
  if s.getLast? = some '@' then 16 else if s.getLast? = some '=' then 15 else if s.getLast? = some '(' then 12 else 0

theorem need_room (s : List Char) : need s = s.length + room s := by
  unfold need room
  rcases h : s.getLast? with _ | c
  · simp
  · by_cases h1 : c = '@'
    · subst h1; simp
    · by_cases h2 : c = '='
      · subst h2; simp
      · by_cases h3 : c = '('
        · subst h3; simp
        · simp [h1, h2, h3]

/-- **C79, no needless breaks**: a text that fits, with what must stay with it, is written behind the last one. -/
theorem fits_unbroken (width : ℕ) (o : Om) (s : List Char) (w : W) (i : ℕ) (hp : o.pack = false) (hs : ∀ c ∈ s, Ink c)
    (he : Even (w.h i)) (hm : o.mask i = true) (hf : column (w.h i).text + s.length + room s < width) :
    ((puts width o s w).h i).text = (w.h i).text ++ shown s := by
  rw [puts_at width o s w i hs hp, hm, if_pos rfl, textH_text]
  have := need_room s
  have hb : breaks width s (w.h i) = false := by
    simp only [breaks, Bool.and_eq_false_iff, decide_eq_false_iff_not]
    left
    rw [he]; omega
  rw [hb]
  simp

/-- **C79, arguments stay**: between a text that ends with `=` or `(` and the argument behind it, up to 15 or 12 characters, the line is
never broken, if the width is enough for the two. -/
theorem argument_stays (width : ℕ) (o : Om) (s a : List Char) (w : W) (i : ℕ) (hp : o.pack = false) (hs : ∀ c ∈ s, Ink c) (hn : '\n' ∉ s)
    (ha : ∀ c ∈ a, Ink c) (hw : ∀ i, Even (w.h i)) (hm : o.mask i = true) (hl : a.length + room a ≤ room s) (hf : s.length + room s + 1 < width) :
    ((puts width o a (puts width o s w)).h i).text = ((puts width o s w).h i).text ++ shown a := by
  have hev : Even ((puts width o s w).h i) := column_kept width [(o, .str s)] (by simpa [Proper] using ⟨hp, hs⟩) w hw i
  refine fits_unbroken width o a _ i hp ha hev hm ?_
  suffices column ((puts width o s w).h i).text + room s < width by omega
  rw [puts_at width o s w i hs hp, hm, if_pos rfl, textH_text, column_text _ _ (shown_line s hn)]
  have h1 := need_room s
  have h2 := shown_le s
  cases hb : breaks width s (w.h i) with
  | true =>
    rw [if_pos rfl, breakH_text, show ['\n', '+'] = ['\n'] ++ ['+'] from rfl, ← List.append_assoc, column_snoc, column_snoc]
    simp
    omega
  | false =>
    simp only [Bool.false_eq_true, if_false]
    simp only [breaks, Bool.and_eq_false_iff, decide_eq_false_iff_not, not_not] at hb
    rw [← hw i]
    rcases hb with hb | hb <;> omega

/-- ` tc1=` and `-12.345u` -/
example : (['-', '1', '2', '.', '3', '4', '5', 'u'] : List Char).length + room ['-', '1', '2', '.', '3', '4', '5', 'u'] ≤ room [' ', 't', 'c', '1', '='] := by
  decide

/-- Specification: the texts one behind the other -/
def flat (l : List (Bool × List Char)) : List Char := l.flatMap Prod.snd

/-- **C79, short lines**: texts that all fit in one line are written one behind the other. -/
theorem short_unbroken (width : ℕ) (o : Om) (l : List (List Char)) (w : W) (i : ℕ) (hp : o.pack = false) (hl : ∀ s ∈ l, (∀ c ∈ s, Ink c) ∧ '\n' ∉ s)
    (hw : ∀ i, Even (w.h i)) (hm : o.mask i = true) (e : ℕ) (he : ∀ s ∈ l, room s ≤ e) (hf : column (w.h i).text + l.flatten.length + e < width) :
    ((run width w (l.map fun s => (o, Op.str s))).h i).text = (w.h i).text ++ l.flatMap shown := by
  induction l generalizing w with
  | nil => simp [run]
  | cons s l ih =>
    obtain ⟨h1, h2⟩ := hl s (by simp)
    simp only [List.flatten_cons, List.length_append] at hf
    have hr := he s (by simp)
    have hstep := fits_unbroken width o s w i hp h1 (hw i) hm (by omega)
    have hev : ∀ i, Even ((puts width o s w).h i) := by
      intro j
      exact column_kept width [(o, .str s)] (by simpa [Proper] using ⟨hp, h1⟩) w hw j
    have hrun : run width w ((s :: l).map fun s => (o, Op.str s)) = run width (puts width o s w) (l.map fun s => (o, Op.str s)) := rfl
    rw [hrun, ih _ (fun t ht => hl t (by simp [ht])) hev (fun t ht => he t (by simp [ht])) (by
      rw [hstep, column_text _ _ (shown_line s h2)]
      have := shown_le s
      omega), hstep]
    simp

example : (∀ c ∈ (['r', '1'] : List Char), Ink c) ∧ '\n' ∉ (['r', '1'] : List Char) := by
  constructor
  · intro c hc; simp at hc; rcases hc with rfl | rfl <;> simp [Ink]
  · decide

/-! ## Columns of a table -/

theorem padH_pos (n : ℕ) (h : H) : (padH n h).cpos = h.cpos + n := by
  induction n generalizing h with
  | zero => rfl
  | succ n ih => rw [padH, ih]; simp [putH]; omega

/-- **C79, tabulator**: in every file of the object the next character comes in the column asked for, with blanks before it, on the
same line if it is not longer; other files are not touched. -/
theorem tab_reaches (n : ℕ) (o : Om) (w : W) (i : ℕ) (he : Even (w.h i)) :
    (o.mask i = false → (tab n o w).h i = w.h i) ∧
    (o.mask i = true → column ((tab n o w).h i).text = n ∧ ((tab n o w).h i).text =
      if column (w.h i).text ≤ n then (w.h i).text ++ List.replicate (n - column (w.h i).text) ' '
      else (w.h i).text ++ '\n' :: List.replicate n ' ') := by
  constructor
  · intro hm; simp [tab, hm]
  · intro hm
    have hE := tabH_even n _ he
    simp only [tab, hm, if_true]
    refine ⟨?_, ?_⟩
    · rw [← hE]
      unfold tabH
      simp only
      rw [padH_pos]
      split
      · simp [putH]
      · omega
    · unfold tabH
      simp only
      rw [padH_eq, textH_text]
      unfold Even at he
      rw [← he]
      by_cases h : n < (w.h i).cpos
      · rw [if_pos h, if_neg (by omega)]
        simp [putH]
      · rw [if_neg h, if_pos (by omega)]

example : Even ⟨['a', 'b'], 2⟩ := by unfold Even; decide

/-! ## What is lost -/

/-- **C79 fails for `@`**: a text with `@` at its end is written without it. -/
theorem at_lost (width : ℕ) (o : Om) (s : List Char) (w : W) (i : ℕ) (hp : o.pack = false) (hs : ∀ c ∈ s, Ink c) (hm : o.mask i = true)
    (h0 : (w.h i).cpos = 0) : ((puts width o (s ++ ['@']) w).h i).text = (w.h i).text ++ s := by
  have hi : ∀ c ∈ s ++ ['@'], Ink c := by
    intro c hc
    simp only [List.mem_append, List.mem_singleton] at hc
    rcases hc with hc | rfl
    · exact hs c hc
    · simp [Ink]
  rw [puts_at width o _ w i hi hp, hm, if_pos rfl, textH_text]
  simp [breaks, h0, shown]

/-- **C79 fails with `pack`**: a blank is left out if the last character written, to any other file, was a blank. -/
theorem pack_other (o p : Om) (w : W) (i : ℕ) (hp : o.pack = true) (hm : p.mask i = false) :
    ((putc o ' ' (putc p ' ' w)).h i).text = (w.h i).text := by
  cases h : o.mask i <;> simp [putc, putH, hp, h, hm]

example : (⟨fun i => i == 1, true⟩ : Om).pack = true ∧ (⟨fun i => i == 2, false⟩ : Om).mask 1 = false := by decide

/-! ## Reading it again -/

/-- Specification: texts one behind the other up to the next that is on a new line -/
def segs : List (Bool × List Char) → List (List Char)
  | [] => [[]]
  | (b, s) :: l =>
    match segs l with
    | t :: ts => if b then [] :: (s ++ t) :: ts else (s ++ t) :: ts
    | [] => [[]]

theorem segs_ne (l : List (Bool × List Char)) : segs l ≠ [] := by
  cases l with
  | nil => simp [segs]
  | cons a l =>
    obtain ⟨b, s⟩ := a
    simp only [segs]
    split
    · split <;> simp
    · simp

theorem segs_flat (l : List (Bool × List Char)) : (segs l).flatten = flat l := by
  induction l with
  | nil => rfl
  | cons a l ih =>
    obtain ⟨b, s⟩ := a
    obtain ⟨t, ts, e⟩ := List.exists_cons_of_ne_nil (segs_ne l)
    rw [e] at ih
    simp only [segs, e]
    cases b <;> simpa [flat] using ih

/-- the lines of a file: the first, and those that go on with it -/
def asLines : List (List Char) → List (List Char)
  | [] => []
  | t :: ts => t :: ts.map ('+' :: ·)

theorem laid_render (l : List (Bool × List Char)) : laid l ++ ['\n'] = render true (asLines (segs l)) := by
  induction l with
  | nil => rfl
  | cons a l ih =>
    obtain ⟨b, s⟩ := a
    obtain ⟨t, ts, e⟩ := List.exists_cons_of_ne_nil (segs_ne l)
    rw [e] at ih
    have h1 : ∀ s, s ++ render true (asLines (t :: ts)) = render true (asLines ((s ++ t) :: ts)) := by
      intro s
      cases ts <;> simp [asLines, render]
    simp only [laid, segs, e]
    rw [List.append_assoc, ih, h1]
    cases b with
    | false => simp
    | true =>
      simp only [if_true]
      cases ts <;> simp [asLines, render]

theorem logical_segs (ts : List (List Char)) : ∀ t, (∀ s ∈ t :: ts, (trim s).getLast? ≠ some '\\') →
    logical (t :: ts.map ('+' :: ·)) = ((t :: ts).flatMap fun s => trim s ++ [' '], []) := by
  induction ts with
  | nil =>
    intro t h
    rw [List.map_nil, logical_cons, if_neg (h t (by simp))]
    simp
  | cons u ts ih =>
    intro t h
    have hb : blank ('+' :: u) = false := by rw [blank, List.all_cons, show isSpace '+' = false from by decide]; rfl
    have hs : ('+' :: u).dropWhile isSpace = '+' :: u := by
      rw [List.dropWhile_cons_of_neg]; decide
    rw [logical_cons, if_neg (h t (by simp)), List.map_cons, List.dropWhile_cons_of_neg (by simp [hb])]
    simp only [hs]
    rw [ih u (fun s hs => h s (by simp only [List.mem_cons] at hs ⊢; tauto))]
    simp

/-- **C79, reading again**: a line that was broken, read from the file, is the texts written, with a blank in the place of every break
(blanks before a break go away) and at the end; no line may be longer than the buffer of the reader or end with a backslash. -/
theorem broken_read (n : ℕ) (l : List (Bool × List Char)) (hl : ∀ s ∈ asLines (segs l), '\n' ∉ s ∧ s.length ≤ n)
    (hb : ∀ s ∈ segs l, (trim s).getLast? ≠ some '\\') :
    (segs l).flatten = flat l ∧ getlines n (laid l ++ ['\n']) = some ((segs l).flatMap fun s => trim s ++ [' '], []) := by
  refine ⟨segs_flat l, ?_⟩
  rw [laid_render, Lines.getlines_logical_partial true n _ (by
    obtain ⟨t, ts, e⟩ := List.exists_cons_of_ne_nil (segs_ne l)
    rw [e]; simp [asLines]) hl (.inl rfl)]
  obtain ⟨t, ts, e⟩ := List.exists_cons_of_ne_nil (segs_ne l)
  rw [e] at hb ⊢
  simp only [asLines]
  rw [logical_segs ts t hb]
  rfl

/-- `r1 ( 1 2 )`, a break, ` resistor` -/
example : (∀ s ∈ asLines (segs [(false, ['r', '1', ' ', '(', '1', ' ', '2', ')']), (true, [' ', 'r', 'e', 's'])]), '\n' ∉ s ∧ s.length ≤ 4094) ∧
    ∀ s ∈ segs [(false, ['r', '1', ' ', '(', '1', ' ', '2', ')']), (true, [' ', 'r', 'e', 's'])], (trim s).getLast? ≠ some '\\' := by decide

/-- Specification: the words of a text, `cur` begun -/
def words : List Char → List Char → List (List Char)
  | [], cur => if cur = [] then [] else [cur]
  | c :: r, cur => if isSpace c then (if cur = [] then words r [] else cur :: words r []) else words r (cur ++ [c])

theorem words_space (a b cur : List Char) (s : Char) (hs : isSpace s = true) : words (a ++ s :: b) cur = words a cur ++ words b [] := by
  induction a generalizing cur with
  | nil => simp only [List.nil_append, words, hs, if_true]; split <;> simp
  | cons c a ih =>
    simp only [List.cons_append, words]
    split
    · split
      · rw [ih]
      · rw [ih]; rfl
    · rw [ih]

/-- ends with a blank, or has nothing -/
def ends (a : List Char) : Bool := match a.getLast? with | some c => isSpace c | none => true

/-- begins with a blank -/
def begins (a : List Char) : Bool := match a with | c :: _ => isSpace c | [] => false

theorem words_gap (a b : List Char) (h : ends a = true ∨ begins b = true) : words (a ++ b) [] = words a [] ++ words b [] := by
  rcases h with h | h
  · rcases List.eq_nil_or_concat a with rfl | ⟨a', s, rfl⟩
    · simp [words]
    · simp only [List.concat_eq_append, ends, List.getLast?_append, List.getLast?_singleton, Option.some_or] at h
      rw [List.concat_eq_append, List.append_assoc, List.singleton_append, words_space a' b [] s h, words_space a' [] [] s h]
      simp [words]
  · cases b with
    | nil => simp [begins] at h
    | cons s b =>
      simp only [begins] at h
      rw [words_space a b [] s h]
      simp [words, h]

theorem words_blanks (a b : List Char) (hb : ∀ c ∈ b, isSpace c = true) : words (a ++ b) [] = words a [] := by
  cases b with
  | nil => simp
  | cons s b =>
    rw [words_space a b [] s (hb s (by simp))]
    suffices words b [] = [] by simp [this]
    have hb' : ∀ c ∈ b, isSpace c = true := fun c hc => hb c (by simp [hc])
    clear hb
    induction b with
    | nil => rfl
    | cons c b ih => simp [words, hb' c (by simp), ih fun c hc => hb' c (by simp [hc])]

/-- Specification: characters to be seen, and blanks -/
def Visible (a : List Char) : Prop := ∀ c ∈ a, isGraph c = true ∨ isSpace c = true

theorem words_trim (a : List Char) (ha : Visible a) : words (trim a ++ [' ']) [] = words a [] := by
  have hsp : isSpace ' ' = true := by decide
  have e : a = trim a ++ (a.reverse.takeWhile fun c => !isGraph c).reverse := by
    have := List.takeWhile_append_dropWhile (p := fun c => !isGraph c) (l := a.reverse)
    have h2 := congrArg List.reverse this
    rw [List.reverse_append, List.reverse_reverse] at h2
    exact h2.symm
  rw [words_blanks _ _ (by intro c hc; simp at hc; subst hc; exact hsp)]
  conv_rhs => rw [e]
  rw [words_blanks]
  intro c hc
  rw [List.mem_reverse] at hc
  have h1 := List.mem_takeWhile_imp (p := fun c => !isGraph c) hc
  have h2 : c ∈ a := by
    have := List.takeWhile_sublist (fun c => !isGraph c) (l := a.reverse) |>.subset hc
    simpa using this
  rcases ha c h2 with h | h
  · simp [h] at h1
  · exact h

/-- Specification: a text that may go to a new line begins with a blank, or the one before it (`p`) ends with one -/
def Spaced : Bool → List (Bool × List Char) → Prop
  | _, [] => True
  | p, (b, s) :: l => (b = true → p = true ∨ begins s = true) ∧ Spaced (if s = [] then p else ends s) l

theorem ends_append (a s : List Char) : ends (a ++ s) = if s = [] then ends a else ends s := by
  rcases List.eq_nil_or_concat s with rfl | ⟨s', c, rfl⟩
  · simp
  · rw [List.concat_eq_append, ← List.append_assoc]
    simp [ends]

theorem words_segs (l : List (Bool × List Char)) : ∀ a, Spaced (ends a) l → Visible a → (∀ x ∈ l, Visible x.2) →
    words ((segs ((false, a) :: l)).flatMap fun s => trim s ++ [' ']) [] = words (a ++ flat l) [] := by
  induction l with
  | nil =>
    intro a _ ha _
    simp only [segs, flat, List.append_nil, List.flatMap_nil, Bool.false_eq_true, if_false, List.flatMap_cons]
    exact words_trim a ha
  | cons x l ih =>
    obtain ⟨b, s⟩ := x
    intro a hS ha hl
    obtain ⟨h1, h2⟩ := hS
    have hs := hl (b, s) (by simp)
    have hl' : ∀ x ∈ l, Visible x.2 := fun x hx => hl x (by simp [hx])
    obtain ⟨t, ts, e⟩ := List.exists_cons_of_ne_nil (segs_ne l)
    cases b with
    | false =>
      have e1 : segs ((false, a) :: (false, s) :: l) = segs ((false, a ++ s) :: l) := by simp [segs, e]
      rw [e1, ih (a ++ s) (by rw [ends_append]; exact h2) (by
        intro c hc; rw [List.mem_append] at hc; exact hc.elim (ha c) (hs c)) hl']
      simp [flat]
    | true =>
      have e1 : segs ((false, a) :: (true, s) :: l) = a :: segs ((false, s) :: l) := by simp [segs, e]
      have hi := ih s (by
        by_cases h0 : s = []
        · subst h0
          rcases h1 rfl with h | h
          · rw [if_pos rfl, h] at h2; exact h2
          · cases h
        · rw [if_neg h0] at h2; exact h2) hs hl'
      rw [e1, List.flatMap_cons, words_gap (trim a ++ [' ']) _ (.inl (by
        rw [ends_append, if_neg (by simp)]; decide)), words_trim a ha, hi]
      have : a ++ flat ((true, s) :: l) = a ++ (s ++ flat l) := by simp [flat]
      rw [this, words_gap a (s ++ flat l)]
      rcases h1 rfl with h | h
      · exact .inl h
      · right
        cases s with
        | nil => cases h
        | cons c s => exact h

/-- **C79, words**: if texts that may go to a new line have a blank before them or at their beginning, a line read again has the words
that were written. -/
theorem words_read (n : ℕ) (l : List (Bool × List Char)) (hl : ∀ s ∈ asLines (segs l), '\n' ∉ s ∧ s.length ≤ n)
    (hb : ∀ s ∈ segs l, (trim s).getLast? ≠ some '\\') (hs : Spaced true l) (hv : ∀ x ∈ l, Visible x.2) :
    ∃ t, getlines n (laid l ++ ['\n']) = some (t, []) ∧ words t [] = words (flat l) [] := by
  refine ⟨_, (broken_read n l hl hb).2, ?_⟩
  have h := words_segs l [] hs (by intro c hc; cases hc) hv
  obtain ⟨t, ts, e⟩ := List.exists_cons_of_ne_nil (segs_ne l)
  have e1 : segs ((false, []) :: l) = segs l := by simp [segs, e]
  rw [e1] at h
  simpa using h

/-- `r1 (1 2)`, a break, ` res` -/
example : Spaced true [(false, ['r', '1']), (true, [' ', '(', '1', ' ', '2', ')']), (true, [' ', 'r', 'e', 's'])] ∧ Visible [' ', 'r', 'e', 's'] := by
  refine ⟨?_, ?_⟩
  · simp [Spaced, begins]; decide
  · intro c hc; simp at hc; rcases hc with rfl | rfl | rfl | rfl <;> decide

/-- **C79 fails for lines between the two lengths**: the width is 9999 columns at the start, the buffer of the reader 4095 characters;
a line longer than the buffer that is not broken is read as two lines. -/
theorem long_split (n : ℕ) (a b : List Char) (c d : Char) (ha : a.length = n) (hn : '\n' ∉ a ++ [c]) (hg : isGraph c = true) (hc : c ≠ '\\')
    (hd : isSpace d = false) (hd2 : d ≠ '+') : getlines n (a ++ c :: d :: b) = some (a ++ [c, ' '], d :: b) := by
  have hf : ∀ (k : ℕ) (s t : List Char), s.length = k → '\n' ∉ s → fgets k (s ++ t) = (s, t) := by
    intro k
    induction k with
    | zero => intro s t h _; rw [List.length_eq_zero_iff.mp h]; simp [fgets]
    | succ k ih =>
      intro s t h h2
      cases s with
      | nil => simp at h
      | cons x s =>
        simp only [List.mem_cons, not_or] at h2
        simp only [List.cons_append, fgets]
        rw [if_neg (Ne.symm h2.1), ih s t (by simpa using h) h2.2]
  have hread := hf (n + 1) (a ++ [c]) (d :: b) (by simp [ha]) hn
  have htrim : trim (a ++ [c]) = a ++ [c] := by simp [trim, hg]
  have e : a ++ c :: d :: b = (a ++ [c]) ++ d :: b := by simp
  have hdw : (d :: b).dropWhile isSpace = d :: b := List.dropWhile_cons_of_neg (by simp [hd])
  unfold getlines
  rw [e]
  cases hs : (a ++ [c]) ++ d :: b with
  | nil => simp at hs
  | cons x t =>
    rw [Lines.getlinesFrom]
    rw [← hs, hread]
    simp only [htrim, List.getLast?_append, List.getLast?_singleton, Option.some_or, Option.some.injEq, hc, if_false, hdw, List.head?_cons,
      hd2, dif_neg, not_false_eq_true]
    simp

example : isGraph 'x' = true ∧ isSpace 'y' = false := by decide

/-! ## Where it goes -/

/-- Specification: a table with these files in order, and so many places left -/
def tbl (l : List File) (k : ℕ) : Table := l.map some ++ List.replicate k none

/-- **C79, files**: a file that has a place keeps it. -/
theorem handle_known (f : File) (l : List File) (k : ℕ) (hf : f ∈ l) : handle f (tbl l k) = (tbl l k, some (l.idxOf f)) := by
  induction l with
  | nil => cases hf
  | cons g l ih =>
    simp only [tbl, List.map_cons, List.cons_append, handle]
    by_cases h : g = f
    · simp [h]
    · have := ih (by simpa [Ne.symm h] using hf)
      rw [tbl] at this
      rw [if_neg h, this, List.idxOf_cons_ne _ h]
      rfl

/-- **C79, files**: a new file gets the next place, which no other has. -/
theorem handle_new (f : File) (l : List File) (k : ℕ) (hf : f ∉ l) : handle f (tbl l (k + 1)) = (tbl (l ++ [f]) k, some l.length) := by
  induction l with
  | nil => simp [tbl, handle, List.replicate_succ]
  | cons g l ih =>
    simp only [List.mem_cons, not_or] at hf
    have := ih hf.2
    rw [tbl, tbl] at this
    simp only [tbl, List.map_cons, List.cons_append, handle]
    rw [if_neg (Ne.symm hf.1), this]
    rfl

/-- **C79 fails when the table is full**: files that were closed keep their places; a new one gets none. -/
theorem handle_full (f : File) (l : List File) (hf : f ∉ l) : handle f (tbl l 0) = (tbl l 0, none) := by
  induction l with
  | nil => simp [tbl, handle]
  | cons g l ih =>
    simp only [List.mem_cons, not_or] at hf
    have := ih hf.2
    rw [tbl] at this
    simp only [tbl, List.map_cons, List.cons_append, handle]
    rw [if_neg (Ne.symm hf.1), this]
    rfl

/-- **C79, files, invariant**: whatever files are attached, no two places have the same, and those used come first. -/
theorem table_kept (fs : List File) : ∃ l k, fs.foldl (fun t f => (handle f t).1) emptyTable = tbl l k ∧ l.Nodup ∧ l.length + k = 31 := by
  suffices ∀ (l : List File) (k : ℕ), l.Nodup → l.length + k = 31 →
      ∃ l' k', fs.foldl (fun t f => (handle f t).1) (tbl l k) = tbl l' k' ∧ l'.Nodup ∧ l'.length + k' = 31 from this [] 31 (by simp) rfl
  induction fs with
  | nil => intro l k h1 h2; exact ⟨l, k, rfl, h1, h2⟩
  | cons f fs ih =>
    intro l k h1 h2
    rw [List.foldl_cons]
    by_cases hf : f ∈ l
    · rw [handle_known f l k hf]; exact ih l k h1 h2
    · cases k with
      | zero => rw [handle_full f l hf]; exact ih l 0 h1 h2
      | succ k =>
        rw [handle_new f l k hf]
        refine ih _ _ ?_ (by simp; omega)
        rw [List.nodup_append]
        exact ⟨h1, by simp, by intro a ha b hb; simp at hb; subst hb; exact fun e => hf (e ▸ ha)⟩

/-- Specification: the output at the start of a command goes to standard output -/
def Start (out : ℕ) (l : List File) (k : ℕ) (c : Ctl) : Prop := c.table = tbl l k ∧ out < l.length ∧ ∀ i, c.mask i = (i == out)

/-- **C79, redirection**: `>` with a new file leads the output there and nowhere else, with exponents; with `echo` before it to standard
output as well. -/
theorem redirected (out : ℕ) (l : List File) (k : ℕ) (c : Ctl) (f : File) (h : Start out l (k + 1) c) (hf : f ∉ l) :
    (∀ i, (outset out c [.redirect f]).mask i = (i == l.length)) ∧ (outset out c [.redirect f]).fmt = true ∧
    (outset out c [.redirect f]).fn = some f ∧
    ∀ i, (outset out c [.echo, .redirect f]).mask i = (i == l.length || i == out) := by
  obtain ⟨h1, h2, h3⟩ := h
  have hh := handle_new f l k hf
  refine ⟨fun i => ?_, rfl, rfl, fun i => ?_⟩
  · simp only [outset, List.foldl_cons, List.foldl_nil, outset1, attach, h1, hh, h3, Bool.false_eq_true, if_false]
    by_cases e : i = out
    · subst e; simp; omega
    · by_cases e2 : l.length = i
      · subst e2; simp [e]
      · simp [show (i == out) = false by simpa using e, show (i == l.length) = false by simpa using Ne.symm e2, e2]
  · simp only [outset, List.foldl_cons, List.foldl_nil, outset1, attach, h1, hh, h3, if_true]
    by_cases e : i = out
    · subst e; simp
    · by_cases e2 : l.length = i
      · subst e2; simp
      · simp [e, e2, Ne.symm e2]

example : Start 0 [7] 30 ⟨tbl [7] 30, none, fun i => i == 0, false, false⟩ := ⟨rfl, by decide, fun _ => rfl⟩

/-- **C79, other words of a command**: `save` leads the output to the file as well, `quiet` away from standard output, both together to
the file only; `basic` only has numbers with exponents, `echo` alone changes nothing and undoes `quiet`. -/
theorem kept (out : ℕ) (l : List File) (k : ℕ) (c : Ctl) (f : File) (h : Start out l (k + 1) c) (hf : f ∉ l) :
    (∀ i, (outset out c [.save f]).mask i = (i == l.length || i == out)) ∧ (outset out c [.save f]).fn = some f ∧
    (outset out c [.save f]).fmt = c.fmt ∧ (∀ i, (outset out c [.quiet]).mask i = false) ∧
    (∀ i, (outset out c [.quiet, .save f]).mask i = (i == l.length)) ∧
    (∀ i, (outset out c [.basic]).mask i = (i == out)) ∧ (outset out c [.basic]).fmt = true ∧
    (∀ i, (outset out c [.echo]).mask i = (i == out)) ∧ (outset out c [.echo]).fmt = c.fmt ∧
    (∀ i, (outset out c [.quiet, .echo]).mask i = (i == out)) := by
  obtain ⟨h1, h2, h3⟩ := h
  have hh := handle_new f l k hf
  refine ⟨fun i => ?_, rfl, rfl, fun i => ?_, fun i => ?_, h3, rfl, fun i => ?_, rfl, fun i => ?_⟩
  · simp only [outset, List.foldl_cons, List.foldl_nil, outset1, attach, h1, hh, h3]
    by_cases e : i = out
    · subst e; simp
    · by_cases e2 : l.length = i
      · subst e2; simp
      · simp [e, e2, Ne.symm e2]
  · simp only [outset, List.foldl_cons, List.foldl_nil, outset1, h3]
    cases h : i == out <;> simp [bne, h]
  · simp only [outset, List.foldl_cons, List.foldl_nil, outset1, attach, h1, hh, h3]
    by_cases e : i = out
    · subst e
      have e1 : (i == l.length) = false := by simp; omega
      have e2 : ¬ l.length = i := by omega
      simp [e1, e2]
    · by_cases e2 : l.length = i
      · subst e2; simp
      · have e3 : (i == l.length) = false := by simp; omega
        have e4 : (i == out) = false := by simpa using e
        simp [e2, e3, e4]
  · simp only [outset, List.foldl_cons, List.foldl_nil, outset1, h3]
    cases h : i == out <;> simp
  · simp only [outset, List.foldl_cons, List.foldl_nil, outset1, h3]
    cases h : i == out <;> simp

/-- **C79, the next command**: whatever a command asked for, when it is done no file is held open and numbers are printed as usual, and
the next one, started at standard output, prints there only. -/
theorem next_command (out : ℕ) (c : Ctl) (l : List Want) :
    (outreset (outset out c l)).fn = none ∧ (outreset (outset out c l)).fmt = false ∧
    ∀ m, (∀ i, m i = (i == out)) → ∀ i, (outset out { outreset (outset out c l) with mask := m } []).mask i = (i == out) :=
  ⟨rfl, rfl, fun _ hm i => hm i⟩

/-- **C79 fails for two files**: with `> a > b` the first is closed when the second is opened; if `fopen` gives another pointer, the
output still goes to the place of the file that is closed. -/
theorem closed_written (out : ℕ) (l : List File) (k : ℕ) (c : Ctl) (a b : File) (h : Start out l (k + 2) c) (ha : a ∉ l) (hb : b ∉ l) (hab : a ≠ b) :
    (outset out c [.redirect a, .redirect b]).fn = some b ∧ (outset out c [.redirect a, .redirect b]).mask l.length = true ∧
    (outset out c [.redirect a, .redirect b]).table[l.length]? = some (some a) := by
  obtain ⟨h1, h2, h3⟩ := h
  have hh := handle_new a l (k + 1) ha
  have hh2 := handle_new b (l ++ [a]) k (by simp [hb, Ne.symm hab])
  refine ⟨rfl, ?_, ?_⟩
  · simp only [outset, List.foldl_cons, List.foldl_nil, outset1, attach, h1, hh, hh2, h3, Bool.false_eq_true, if_false]
    simp; omega
  · simp only [outset, List.foldl_cons, List.foldl_nil, outset1, attach, h1, hh, hh2]
    simp [tbl]

/-- **C79 fails when the table is full**: `>` leads the output nowhere, and nothing tells. -/
theorem redirected_nowhere (out : ℕ) (l : List File) (c : Ctl) (f : File) (h : Start out l 0 c) (hf : f ∉ l) (i : ℕ) :
    (outset out c [.redirect f]).mask i = false := by
  obtain ⟨h1, h2, h3⟩ := h
  have hh := handle_full f l hf
  simp only [outset, List.foldl_cons, List.foldl_nil, outset1, attach, h1, hh, h3, Bool.false_eq_true, if_false]
  cases h : i == out <;> simp [bne, h]

/-! ## Files opened and closed -/

/-- Specification: every file that is opened is one that can be -/
def Opens (l : List FnOp) : Prop := ∀ o ∈ l, o ≠ .open none

/-- **C79, files closed**: if all files can be opened, then whatever is done, nothing is closed twice, no more than one file is open, and
none after the last command. -/
theorem files_closed_partial (l : List FnOp) (hl : Opens l) :
    ∃ s, fnRun ⟨none, []⟩ l = some s ∧ s.live = s.fn.toList ∧ fnRun ⟨none, []⟩ (l ++ [.reset]) = some ⟨none, []⟩ := by
  have key : ∀ l, Opens l → ∀ s : Fn, s.live = s.fn.toList → ∃ t, fnRun s l = some t ∧ t.live = t.fn.toList := by
    intro l
    induction l with
    | nil => intro _ s h; exact ⟨s, rfl, h⟩
    | cons o l ih =>
      intro hl s h
      obtain ⟨fn, live⟩ := s
      simp only at h
      subst h
      have ho : ∃ t, fnStep ⟨fn, fn.toList⟩ o = some t ∧ t.live = t.fn.toList := by
        cases o with
        | «open» f =>
          cases f with
          | none => exact absurd rfl (hl _ (by simp))
          | some f => cases fn <;> exact ⟨⟨some f, [f]⟩, by simp [fnStep, xclose], rfl⟩
        | reset => cases fn <;> exact ⟨⟨none, []⟩, by simp [fnStep, xclose], rfl⟩
      obtain ⟨t, h1, h2⟩ := ho
      obtain ⟨u, h3, h4⟩ := ih (fun o ho => hl o (by simp [ho])) t h2
      refine ⟨u, ?_, h4⟩
      unfold fnRun at h3 ⊢
      rw [List.foldlM_cons, h1]
      exact h3
  obtain ⟨s, h1, h2⟩ := key l hl ⟨none, []⟩ rfl
  refine ⟨s, h1, h2, ?_⟩
  unfold fnRun at h1 ⊢
  rw [List.foldlM_append, h1]
  obtain ⟨fn, live⟩ := s
  simp only at h2
  subst h2
  cases fn <;> simp [fnStep, xclose]

/-- `> a > b`, the next command `> a` -/
example : Opens [.open (some 1), .open (some 2), .reset, .open (some 1)] := by unfold Opens; decide

/-- **C79 fails for a file that can not be opened**, the second of a command: the first, closed already, is closed again at the end. -/
theorem closed_twice (a : File) : fnRun ⟨none, []⟩ [.open (some a), .open none, .reset] = none := by
  simp [fnRun, fnStep, xclose]

end Gnucap.Out
