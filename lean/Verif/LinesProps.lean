import Verif.LinesModel
import Mathlib.Data.List.Basic
import Mathlib.Tactic.Common

/-!
# Continuation lines (C47)

Specification in terms of physical lines (texts without newline).
-/
namespace Gnucap.Lines
open Gnucap.Scan (isSpace isGraph)

/-- a line with nothing on it -/
def blank (l : List Char) : Bool := l.all isSpace

/-- The text of a file made of lines; `fin`: the last one ends with a newline, too. -/
def render (fin : Bool) : List (List Char) → List Char
  | [] => []
  | [l] => if fin then l ++ ['\n'] else l
  | l :: m :: r => l ++ '\n' :: render fin (m :: r)

/-- the first non-blank line, from its first non-blank character on -/
def firstText (ls : List (List Char)) : List Char := ((ls.dropWhile blank).headD []).dropWhile isSpace

/-- **Specification.** The first logical line and the lines after it: a line ending in a backslash goes on with the next line, whatever
it is; otherwise a next non-blank line beginning with `+` continues it.  Each part is followed by one blank. -/
def logical : List (List Char) → List Char × List (List Char)
  | [] => ([], [])
  | l :: rest =>
    if (trim l).getLast? = some '\\' then ((trim l).dropLast ++ ' ' :: (logical rest).1, (logical rest).2)
    else if h : rest.dropWhile blank = [] then (trim l ++ [' '], [])
    else if (firstText rest).head? = some '+' then
      (trim l ++ ' ' :: (logical ((firstText rest).tail :: (rest.dropWhile blank).tail)).1,
        (logical ((firstText rest).tail :: (rest.dropWhile blank).tail)).2)
    else (trim l ++ [' '], firstText rest :: (rest.dropWhile blank).tail)
termination_by ls => ls.length
decreasing_by
  all_goals
    try have hlen := (List.dropWhile_sublist blank (l := rest)).length_le
    try have h2 : 0 < (rest.dropWhile blank).length := List.length_pos_iff.mpr h
    simp only [List.length_cons, List.length_tail]
    omega

theorem logical_cons (l : List Char) (rest : List (List Char)) : logical (l :: rest) =
    if (trim l).getLast? = some '\\' then ((trim l).dropLast ++ ' ' :: (logical rest).1, (logical rest).2)
    else match rest.dropWhile blank with
      | [] => (trim l ++ [' '], [])
      | m :: r =>
        match m.dropWhile isSpace with
        | '+' :: m' => (trim l ++ ' ' :: (logical (m' :: r)).1, (logical (m' :: r)).2)
        | m' => (trim l ++ [' '], m' :: r) := by
  rw [logical]
  split
  · rfl
  · cases hd : rest.dropWhile blank with
    | nil => simp
    | cons m r =>
      have e : firstText rest = m.dropWhile isSpace := by simp [firstText, hd]
      simp only [e, List.tail_cons, reduceCtorEq, dif_neg, not_false_eq_true]
      split
      · rename_i h
        cases hx : m.dropWhile isSpace with
        | nil => rw [hx] at h; cases h
        | cons a b =>
          rw [hx] at h
          simp only [List.head?_cons, Option.some.injEq] at h
          subst h
          rfl
      · rename_i h
        split
        · rename_i m' hx; rw [hx] at h; exact absurd rfl h
        · rfl

/-- Condition on a file whose last line has no newline: that line is not empty (then it would not be there) and is not a lone `+`
continuing another one. -/
def EndOk (fin : Bool) (lines : List (List Char)) : Prop :=
  fin = true ∨ (lines.getLast? ≠ some [] ∧ ∀ x, lines.tail.getLast? = some x → x.dropWhile isSpace ≠ ['+'])

theorem fgets_line (n : ℕ) (l t : List Char) (hl : '\n' ∉ l) (hn : l.length < n) : fgets n (l ++ '\n' :: t) = (l ++ ['\n'], t) := by
  induction l generalizing n with
  | nil => cases n with
    | zero => simp at hn
    | succ n => simp [fgets]
  | cons c l ih =>
    cases n with
    | zero => simp at hn
    | succ n =>
      simp only [List.mem_cons, not_or] at hl
      simp only [List.length_cons] at hn
      simp only [List.cons_append, fgets]
      rw [if_neg (Ne.symm hl.1), ih n hl.2 (by omega)]

theorem fgets_last (n : ℕ) (l : List Char) (hl : '\n' ∉ l) (hn : l.length ≤ n) : fgets n l = (l, []) := by
  induction l generalizing n with
  | nil => cases n <;> simp [fgets]
  | cons c l ih =>
    cases n with
    | zero => simp at hn
    | succ n =>
      simp only [List.mem_cons, not_or] at hl
      simp only [List.length_cons] at hn
      simp only [fgets]
      rw [if_neg (Ne.symm hl.1), ih n hl.2 (by omega)]

theorem trim_newline (l : List Char) : trim (l ++ ['\n']) = trim l := by
  unfold trim
  rw [List.reverse_append]
  simp [show isGraph '\n' = false by decide]

/-- what is read first -/
theorem fgets_render (fin : Bool) (n : ℕ) (l : List Char) (rest : List (List Char)) (hl : '\n' ∉ l) (hn : l.length ≤ n) :
    trim (fgets (n + 1) (render fin (l :: rest))).1 = trim l ∧ (fgets (n + 1) (render fin (l :: rest))).2 = render fin rest := by
  cases rest with
  | nil =>
    cases fin with
    | true =>
      simp only [render, if_true]
      rw [fgets_line _ l [] hl (by omega)]
      exact ⟨trim_newline l, rfl⟩
    | false =>
      simp only [render, Bool.false_eq_true, if_false]
      rw [fgets_last _ l hl (by omega)]
      exact ⟨rfl, rfl⟩
  | cons m r =>
    simp only [render]
    rw [fgets_line _ l _ hl (by omega)]
    exact ⟨trim_newline l, rfl⟩

/-- text after blanks and blank lines -/
def skipped (fin : Bool) : List (List Char) → List Char
  | [] => []
  | m :: r => render fin (m.dropWhile isSpace :: r)

theorem skip_render (fin : Bool) (rest : List (List Char)) :
    (render fin rest).dropWhile isSpace = skipped fin (rest.dropWhile blank) := by
  induction rest with
  | nil => rfl
  | cons m r ih =>
    by_cases hb : blank m = true
    · have hall : ∀ c ∈ m, isSpace c = true := by simpa [blank] using hb
      have hdrop : ∀ t, (m ++ t).dropWhile isSpace = t.dropWhile isSpace := fun t => List.dropWhile_append_of_pos hall
      rw [List.dropWhile_cons_of_pos hb, ← ih]
      cases r with
      | nil =>
        cases fin with
        | true => simp only [render, if_true]; rw [hdrop]; decide
        | false =>
          have := hdrop []
          simpa [render] using this
      | cons m' r' =>
        simp only [render]
        rw [hdrop, List.dropWhile_cons_of_pos (by decide)]
    · have hnot : ∃ c ∈ m, isSpace c = false := by
        simp only [blank, List.all_eq_true, not_forall] at hb
        obtain ⟨c, hc, h⟩ := hb
        exact ⟨c, hc, by simpa using h⟩
      have hdrop : ∀ t, (m ++ t).dropWhile isSpace = m.dropWhile isSpace ++ t := by
        intro t
        obtain ⟨c, hc, h⟩ := hnot
        clear hb ih
        induction m with
        | nil => cases hc
        | cons a m ih =>
          rw [List.cons_append]
          by_cases ha : isSpace a = true
          · rw [List.dropWhile_cons_of_pos ha, List.dropWhile_cons_of_pos ha]
            apply ih
            rcases List.mem_cons.mp hc with rfl | hc
            · rw [ha] at h; cases h
            · exact hc
          · rw [List.dropWhile_cons_of_neg ha, List.dropWhile_cons_of_neg ha, List.cons_append]
      rw [List.dropWhile_cons_of_neg hb]
      cases r with
      | nil =>
        cases fin with
        | true => simp only [render, if_true, skipped]; exact hdrop _
        | false => simp only [render, skipped, Bool.false_eq_true, if_false]
      | cons m' r' =>
        simp only [render, skipped]
        exact hdrop _

theorem render_ne_nil (fin : Bool) (l : List Char) (rest : List (List Char)) (h : EndOk fin (l :: rest)) : render fin (l :: rest) ≠ [] := by
  cases rest with
  | nil =>
    simp only [render]
    rcases h with rfl | ⟨h, _⟩
    · simp
    · cases fin
      · simpa using h
      · simp
  | cons m r => simp [render]

theorem mem_dropWhile_blank {rest : List (List Char)} {m : List Char} {r : List (List Char)} (h : rest.dropWhile blank = m :: r) :
    (m :: r) <:+ rest ∧ blank m = false := by
  refine ⟨h ▸ List.dropWhile_suffix blank, ?_⟩
  have := List.head_dropWhile_not blank (l := rest) (by rw [h]; simp)
  simpa [h] using this

theorem getlines_from (fin : Bool) (n : ℕ) (k : ℕ) : ∀ (lines : List (List Char)), lines.length ≤ k → lines ≠ [] →
    (∀ l ∈ lines, '\n' ∉ l ∧ l.length ≤ n) → EndOk fin lines → ∀ s,
    getlinesFrom n s (render fin lines) = some (s ++ (logical lines).1, render fin (logical lines).2) := by
  induction k with
  | zero => intro lines hk hne; simp at hk; exact absurd hk hne
  | succ k ih =>
    intro lines hk hne hl hend s
    cases lines with
    | nil => exact absurd rfl hne
    | cons l rest =>
      have hr := fgets_render fin n l rest (hl l (by simp)).1 (hl l (by simp)).2
      have hskip := skip_render fin rest
      have hne' := render_ne_nil fin l rest hend
      cases ht : render fin (l :: rest) with
      | nil => exact absurd ht hne'
      | cons c t =>
        rw [ht] at hr
        rw [getlinesFrom, logical_cons]
        simp only [hr.1, hr.2]
        by_cases hb : (trim l).getLast? = some '\\'
        · rw [if_pos hb, if_pos hb]
          cases rest with
          | nil => simp [render, getlinesFrom, logical]
          | cons m r =>
            rw [ih (m :: r) (by simp at hk ⊢; omega) (by simp) (fun x hx => hl x (by simp at hx ⊢; exact Or.inr hx)) ?_]
            · simp
            · rcases hend with h | ⟨h1, h2⟩
              · exact Or.inl h
              · right
                refine ⟨by simpa using h1, ?_⟩
                intro x hx
                apply h2 x
                cases r with
                | nil => simp at hx
                | cons a b => simpa using hx
        · rw [if_neg hb, if_neg hb]
          cases hd : rest.dropWhile blank with
          | nil =>
            rw [hd] at hskip
            simp only [hskip, skipped]
            rw [dif_neg (by simp)]
            simp [render]
          | cons m r =>
            rw [hd] at hskip
            obtain ⟨hsuf, hblank⟩ := mem_dropWhile_blank hd
            have hm := hl m (by
              have := hsuf.subset (List.mem_cons_self (a := m) (l := r))
              simp [this])
            have hlast : rest.getLast? = (m :: r).getLast? := by
              obtain ⟨pre, e⟩ := hsuf
              rw [← e, List.getLast?_append]
              simp [List.getLast?_cons]
            have hm' : '\n' ∉ m.dropWhile isSpace ∧ (m.dropWhile isSpace).length ≤ n := by
              have hsub := List.dropWhile_sublist isSpace (l := m)
              exact ⟨fun h => hm.1 (hsub.subset h), hsub.length_le.trans hm.2⟩
            have hmne : m.dropWhile isSpace ≠ [] := by
              intro h0
              have : blank m = true := by
                simp only [blank, List.all_eq_true]
                intro c hc
                by_contra hcs
                have : c ∈ m.dropWhile isSpace := by
                  clear hm' hm hskip hd hblank hlast hsuf
                  induction m with
                  | nil => cases hc
                  | cons a m ihm =>
                    by_cases ha : isSpace a = true
                    · rw [List.dropWhile_cons_of_pos ha] at h0 ⊢
                      rcases List.mem_cons.mp hc with rfl | hc
                      · exact absurd ha hcs
                      · exact ihm h0 hc
                    · rw [List.dropWhile_cons_of_neg ha]; exact hc
                rw [h0] at this; cases this
              rw [this] at hblank; cases hblank
            by_cases hplus : ∃ u, m.dropWhile isSpace = '+' :: u
            · obtain ⟨m', hm1⟩ := hplus
              have hrec : getlinesFrom n (s ++ trim l ++ [' ']) (render fin (m' :: r)) = _ := ih (m' :: r) (by
                  have := hsuf.length_le; simp at this hk ⊢; omega) (by simp) (by
                  intro x hx
                  rcases List.mem_cons.mp hx with rfl | hx
                  · rw [hm1] at hm'
                    exact ⟨fun h => hm'.1 (List.mem_cons_of_mem _ h), by simp at hm'; omega⟩
                  · exact hl x (by
                      have := hsuf.subset (List.mem_cons_of_mem m hx)
                      simp [this])) (by
                  rcases hend with h | ⟨h1, h2⟩
                  · exact Or.inl h
                  · right
                    cases r with
                    | nil =>
                      refine ⟨?_, by simp⟩
                      have := h2 m (by rw [List.tail_cons, hlast]; rfl)
                      rw [hm1] at this
                      simpa using this
                    | cons a b =>
                      have hrest : rest ≠ [] := by intro h; rw [h] at hd; simp at hd
                      refine ⟨?_, ?_⟩
                      · have e1 : (l :: rest).getLast? = rest.getLast? := by
                          cases rest with
                          | nil => exact absurd rfl hrest
                          | cons x y => simp
                        rw [e1, hlast] at h1
                        simpa using h1
                      · intro x hx
                        apply h2 x
                        rw [List.tail_cons, hlast]
                        simpa using hx) _
              have htext : (render fin rest).dropWhile isSpace = '+' :: render fin (m' :: r) := by
                rw [hskip, skipped, hm1]
                cases r with
                | nil => cases fin <;> simp [render]
                | cons a b => simp [render]
              simp only [htext, List.tail_cons, hm1]
              rw [dif_pos (by simp), hrec]
              simp
            · push Not at hplus
              have htext : ∀ u, (render fin rest).dropWhile isSpace ≠ '+' :: u := by
                intro u h
                rw [hskip, skipped] at h
                cases hx : m.dropWhile isSpace with
                | nil => exact hmne hx
                | cons a b =>
                  rw [hx] at h
                  have : a = '+' := by
                    cases r with
                    | nil => cases fin <;> simp [render] at h <;> exact h.1
                    | cons x y => simp [render] at h; exact h.1
                  exact hplus b (by rw [hx, this])
              have hhead : ¬ ((render fin rest).dropWhile isSpace).head? = some '+' := by
                intro h
                cases hx : (render fin rest).dropWhile isSpace with
                | nil => rw [hx] at h; cases h
                | cons a b =>
                  rw [hx] at h
                  simp only [List.head?_cons, Option.some.injEq] at h
                  exact htext b (by rw [hx, h])
              have e : (logical (l :: rest)) = (trim l ++ [' '], m.dropWhile isSpace :: r) := by
                rw [logical_cons, if_neg hb, hd]
                simp only [hplus]
              rw [logical_cons, if_neg hb, hd] at e
              rw [dif_neg hhead, hskip, skipped, e]
              simp

/-- **C47.** For any list of physical lines, none longer than the buffer, `getlines` delivers the first logical line and leaves the
file at the first line that does not belong to it. -/
theorem getlines_logical_partial (fin : Bool) (n : ℕ) (lines : List (List Char)) (hne : lines ≠ [])
    (hl : ∀ l ∈ lines, '\n' ∉ l ∧ l.length ≤ n) (hend : EndOk fin lines) :
    getlines n (render fin lines) = some ((logical lines).1, render fin (logical lines).2) := by
  have := getlines_from fin n lines.length lines le_rfl hne hl hend []
  simpa [getlines] using this

/-- at the end of the file there is no line -/
theorem getlines_end (n : ℕ) : getlines n [] = none := by simp [getlines, getlinesFrom]

theorem logical_rest (k : ℕ) : ∀ (lines : List (List Char)), lines.length ≤ k → lines ≠ [] →
    (logical lines).2.length < lines.length ∧
    (∀ (n : ℕ), (∀ l ∈ lines, '\n' ∉ l ∧ l.length ≤ n) → ∀ l ∈ (logical lines).2, '\n' ∉ l ∧ l.length ≤ n) ∧
    (∀ m r, (logical lines).2 = m :: r → ∃ m0, (m0 :: r) <:+ lines ∧ m0 :: r ≠ lines ∧ blank m0 = false ∧ m = m0.dropWhile isSpace ∧
      m.head? ≠ some '+') := by
  induction k with
  | zero => intro lines hk hne; simp at hk; exact absurd hk hne
  | succ k ih =>
    intro lines hk hne
    cases lines with
    | nil => exact absurd rfl hne
    | cons l rest =>
      rw [logical_cons]
      by_cases hb : (trim l).getLast? = some '\\'
      · rw [if_pos hb]
        cases rest with
        | nil => simp [logical]
        | cons m r =>
          obtain ⟨h1, h2, h3⟩ := ih (m :: r) (by simp at hk ⊢; omega) (by simp)
          refine ⟨by simp at h1 ⊢; omega, fun n hn => h2 n (fun x hx => hn x (by simp at hx ⊢; exact Or.inr hx)), ?_⟩
          intro a b e
          obtain ⟨m0, g1, g2, g3⟩ := h3 a b e
          refine ⟨m0, g1.trans (List.suffix_cons _ _), ?_, g3⟩
          intro he
          have e1 := g1.length_le
          rw [he] at e1
          simp at e1
      · rw [if_neg hb]
        cases hd : rest.dropWhile blank with
        | nil => simp
        | cons m r =>
          obtain ⟨hsuf, hblank⟩ := mem_dropWhile_blank hd
          have hlen := hsuf.length_le
          simp only
          split
          · rename_i m' heq
            obtain ⟨h1, h2, h3⟩ := ih (m' :: r) (by simp at hlen hk ⊢; omega) (by simp)
            refine ⟨by simp at h1 hlen ⊢; omega, fun n hn => h2 n ?_, ?_⟩
            · intro x hx
              rcases List.mem_cons.mp hx with rfl | hx
              · have hm := hn m (List.mem_cons_of_mem _ (hsuf.subset (by simp)))
                have hsub := List.dropWhile_sublist isSpace (l := m)
                rw [heq] at hsub
                exact ⟨fun h => hm.1 (hsub.subset (List.mem_cons_of_mem _ h)), by
                  have := hsub.length_le; simp at this; omega⟩
              · exact hn x (List.mem_cons_of_mem _ (hsuf.subset (List.mem_cons_of_mem _ hx)))
            · intro a b e
              obtain ⟨m0, g1, g2, g3⟩ := h3 a b e
              have g1' : (m0 :: b) <:+ r := by
                rcases List.suffix_cons_iff.mp g1 with h | h
                · exact absurd h g2
                · exact h
              refine ⟨m0, (g1'.trans (List.suffix_cons m r)).trans (hsuf.trans (List.suffix_cons _ _)), ?_, g3⟩
              intro he
              have e1 := g1'.length_le
              have e2 := congrArg List.length he
              simp at e1 e2 hlen; omega
          · rename_i m' hno
            refine ⟨by simp at hlen ⊢; omega, fun n hn x hx => ?_, ?_⟩
            · rcases List.mem_cons.mp hx with rfl | hx
              · have hm := hn m (List.mem_cons_of_mem _ (hsuf.subset (by simp)))
                have hsub := List.dropWhile_sublist isSpace (l := m)
                exact ⟨fun h => hm.1 (hsub.subset h), hsub.length_le.trans hm.2⟩
              · exact hn x (List.mem_cons_of_mem _ (hsuf.subset (List.mem_cons_of_mem _ hx)))
            · intro a b e
              cases e
              refine ⟨m, hsuf.trans (List.suffix_cons _ _), ?_, hblank, rfl, ?_⟩
              · intro he
                have e2 := congrArg List.length he
                simp at e2 hlen; omega
              · intro hh
                cases hx : m.dropWhile isSpace with
                | nil => rw [hx] at hh; cases hh
                | cons a c =>
                  rw [hx] at hh
                  simp only [List.head?_cons, Option.some.injEq] at hh
                  exact hno c (by rw [hx, hh])

/-- all logical lines of a file, by calling `getlines` until the end of input (as the callers do, e.g. c_getckt.cc) -/
def readAll (n : ℕ) : ℕ → List Char → List (List Char)
  | 0, _ => []
  | k + 1, t =>
    match getlines n t with
    | none => []
    | some (s, r) => s :: readAll n k r

/-- all logical lines of a list of physical lines -/
def logicals (lines : List (List Char)) : List (List Char) :=
  if h : lines = [] then []
  else (logical lines).1 :: logicals (logical lines).2
termination_by lines.length
decreasing_by exact (logical_rest lines.length lines le_rfl h).1

/-- **C47, whole file**: reading to the end of input gives the logical lines in order, and ends. -/
theorem readAll_logicals_partial (n : ℕ) (k : ℕ) : ∀ (lines : List (List Char)), lines.length ≤ k →
    (∀ l ∈ lines, '\n' ∉ l ∧ l.length ≤ n) → readAll n (k + 1) (render true lines) = logicals lines := by
  induction k with
  | zero =>
    intro lines hk _
    simp at hk
    subst hk
    rw [logicals]
    simp [readAll, render, getlines_end]
  | succ k ih =>
    intro lines hk hl
    rw [logicals]
    by_cases h : lines = []
    · subst h; simp [readAll, render, getlines_end]
    · rw [dif_neg h, readAll, getlines_logical_partial true n lines h hl (Or.inl rfl)]
      obtain ⟨h1, h2, _⟩ := logical_rest lines.length lines le_rfl h
      simp only
      rw [ih _ (by omega) (h2 n hl)]

/-- **C47 fails for long lines**: a line with one character more than the buffer takes is read as two lines. -/
theorem long_line_split (n : ℕ) (hn : 0 < n) :
    getlines n (render true [List.replicate (n + 2) 'a']) = some (List.replicate (n + 1) 'a' ++ [' '], ['a', '\n']) := by
  have hf : ∀ k t, fgets k (List.replicate k 'a' ++ t) = (List.replicate k 'a', t) := by
    intro k
    induction k with
    | zero => intro t; simp [fgets]
    | succ k ih =>
      intro t
      rw [List.replicate_succ, List.cons_append]
      simp only [fgets]
      rw [if_neg (by decide), ih]
  have htrim : trim (List.replicate (n + 1) 'a') = List.replicate (n + 1) 'a' := by
    unfold trim
    rw [List.reverse_replicate, List.replicate_succ, List.dropWhile_cons_of_neg (by decide), ← List.replicate_succ, List.reverse_replicate]
  have htext : render true [List.replicate (n + 2) 'a'] = List.replicate (n + 1) 'a' ++ ['a', '\n'] := by
    simp only [render, if_true]
    rw [List.replicate_succ' (n := n + 1)]; simp
  rw [htext]
  unfold getlines
  have hf' := hf (n + 1) ['a', '\n']
  cases ht : List.replicate (n + 1) 'a' ++ ['a', '\n'] with
  | nil => simp at ht
  | cons c t =>
    rw [ht] at hf'
    rw [getlinesFrom]
    simp only [hf', htrim]
    rw [if_neg (by rw [List.getLast?_replicate]; simp)]
    rw [dif_neg (by decide)]
    simp only [List.nil_append, Option.some.injEq, Prod.mk.injEq, true_and]
    decide

example : logicals ["r1 1 0 ".toList, " ".toList, "  + 5\\ ".toList, "k".toList, "* c".toList] =
    ["r1 1 0  5 k ".toList, "* c ".toList] := by
  rw [logicals, dif_neg (by simp)]
  have e1 : logical ["r1 1 0 ".toList, " ".toList, "  + 5\\ ".toList, "k".toList, "* c".toList] = ("r1 1 0  5 k ".toList, ["* c".toList]) := by
    have a1 : logical ["k".toList, "* c".toList] = ("k ".toList, ["* c".toList]) := by rw [logical_cons]; decide
    have a2 : logical [" 5\\ ".toList, "k".toList, "* c".toList] = (" 5 k ".toList, ["* c".toList]) := by
      rw [logical_cons, a1]; decide
    rw [logical_cons, if_neg (by decide)]
    simp only [show List.dropWhile blank [" ".toList, "  + 5\\ ".toList, "k".toList, "* c".toList] = ["  + 5\\ ".toList, "k".toList, "* c".toList] by decide,
      show List.dropWhile isSpace "  + 5\\ ".toList = '+' :: " 5\\ ".toList by decide, a2]
    decide
  rw [e1, logicals, dif_neg (by simp)]
  have e2 : logical ["* c".toList] = ("* c ".toList, []) := by rw [logical_cons]; decide
  rw [e2, logicals, dif_pos rfl]

end Gnucap.Lines
