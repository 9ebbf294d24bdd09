import Verif.SpiceModel
import Verif.ScanProps
import Mathlib.Tactic.Ring

/-! # Instances in the SPICE netlist language (C74) -/
set_option linter.unusedSimpArgs false
namespace Gnucap.Spice
open Gnucap.Scan

/-! ## Specification -/

/-- a name that can stand on a line as it is: graphic characters, none of which ends a word, and no quote in front -/
structure Plain (w : List Char) : Prop where
  ne : w ≠ []
  graph : ∀ c ∈ w, isGraph c = true
  noTerm : ∀ c ∈ w, isTermChar c = false
  noQuote : w.head? ≠ some '"' ∧ w.head? ≠ some '\''

/-- what may stand between words: blanks, and perhaps a comma among them -/
structure Gap where
  before : List Char
  comma : Bool
  after : List Char

def Gap.text (g : Gap) : List Char := g.before ++ (if g.comma then [','] else []) ++ g.after

/-- the blanks are blanks -/
def Gap.ok (g : Gap) : Prop := (∀ c ∈ g.before, isSpace c = true) ∧ ∀ c ∈ g.after, isSpace c = true

/-- words with what stands behind each, and a text `z` at the end -/
def text : List (List Char × Gap) → List Char → List Char
  | [], z => z
  | (w, g) :: l, z => w ++ (g.text ++ text l z)

/-- The words are plain, with blanks or a comma between them; each ends before a blank, a comma, a bracket, `=`, `;` or the end
of the line. -/
def Good (z : List Char) : List (List Char × Gap) → Prop
  | [] => True
  | (w, g) :: l => Plain w ∧ g.ok ∧ isTerm (g.text ++ text l z) = true ∧ Good z l

/-- the texts behind each word -/
def tails (z : List Char) : List (List Char × Gap) → List (List Char)
  | [] => []
  | (_, _) :: l => text l z :: tails z l

/-! ## The scanner -/

theorem graph_not_space {c : Char} (h : isGraph c = true) : isSpace c = false := by
  unfold isGraph at h
  unfold isSpace
  simp at h ⊢
  omega

theorem space_not_graph {c : Char} (h : isSpace c = true) : isGraph c = false := by
  cases hg : isGraph c with
  | false => rfl
  | true => rw [graph_not_space hg] at h; cases h

theorem skipbl_cons {c : Char} (r : List Char) (h : isGraph c = true) : skipbl (c :: r) = c :: r := by
  unfold skipbl; rw [if_pos h]

theorem skipbl_blanks (b r : List Char) (h : ∀ c ∈ b, isSpace c = true) : skipbl (b ++ r) = skipbl r := by
  induction b with
  | nil => rfl
  | cons c b ih =>
    have : skipbl (c :: b ++ r) = skipbl (b ++ r) := by
      rw [List.cons_append]
      conv_lhs => unfold skipbl
      rw [if_neg (by rw [space_not_graph (h c (by simp))]; simp)]
    rw [this]
    exact ih fun d hd => h d (by simp [hd])

theorem skipbl_idem (s : List Char) : skipbl (skipbl s) = skipbl s := by
  induction s with
  | nil => rfl
  | cons c r ih =>
    by_cases h : isGraph c = true
    · rw [skipbl_cons r h, skipbl_cons r h]
    · have : skipbl (c :: r) = skipbl r := by conv_lhs => unfold skipbl
                                              rw [if_neg h]
      rw [this, ih]

/-- the text begins with something to read, which is not a comma, or is at its end -/
def Next (s : List Char) : Prop := s = [] ∨ ∃ c r, s = c :: r ∧ isGraph c = true ∧ c ≠ ','

theorem Next.skipbl {s : List Char} (h : Next s) : skipbl s = s := by
  rcases h with rfl | ⟨c, r, rfl, h, _⟩
  · rfl
  · exact skipbl_cons r h

theorem Next.skipcom {s : List Char} (h : Next s) : skipcom s = s := by
  unfold Scan.skipcom
  rw [h.skipbl]
  rcases h with rfl | ⟨c, r, rfl, h1, h2⟩
  · rfl
  · split
    · rename_i e; injection e with e1 e2; exact absurd e1 h2
    · rfl

theorem skipcom_gap (g : Gap) (hg : g.ok) (s : List Char) (h : Next s) : skipcom (g.text ++ s) = s := by
  obtain ⟨b, cm, a⟩ := g
  obtain ⟨h1, h2⟩ := hg
  simp only at h1 h2
  unfold Gap.text
  cases cm with
  | false =>
    simp only [Bool.false_eq_true, if_false, List.append_nil, List.append_assoc]
    have : Scan.skipbl (b ++ (a ++ s)) = s := by rw [skipbl_blanks _ _ h1, skipbl_blanks _ _ h2, h.skipbl]
    have e := h.skipcom
    unfold Scan.skipcom at e ⊢
    rw [this]
    rw [h.skipbl] at e
    exact e
  | true =>
    simp only [if_true, List.append_assoc, List.cons_append, List.nil_append]
    unfold Scan.skipcom
    rw [skipbl_blanks _ _ h1, skipbl_cons _ (by decide)]
    simp only
    rw [skipbl_blanks _ _ h2, h.skipbl]

/-- reading a word with any set of ends and quotes -/
theorem ctos_plain (term : List Char) (q : List (Char × Char)) (w rest : List Char) (hw : w ≠ []) (hg : ∀ c ∈ w, isGraph c = true)
    (ht : ∀ c ∈ w, term.contains c = false) (hq : ∀ c, w.head? = some c → q.lookup c = none)
    (hr : ∀ c, rest.head? = some c → stops term c = true) : ctos term q (w ++ rest) = (w, skipcom rest) := by
  obtain ⟨c, w', rfl⟩ := List.exists_cons_of_ne_nil hw
  unfold ctos
  simp only
  have e : skipbl (c :: w' ++ rest) = c :: w' ++ rest := by
    rw [List.cons_append]; exact skipbl_cons _ (hg c (by simp))
  rw [e]
  simp only [List.cons_append]
  rw [hq c rfl]
  simp only
  have hs : ∀ d ∈ c :: w', (!stops term d) = true := by
    intro d hd
    unfold stops
    rw [graph_not_space (hg d hd), ht d hd]
    rfl
  have h1 : (c :: (w' ++ rest)).takeWhile (fun d => !stops term d) = c :: w' := by
    rw [← List.cons_append, List.takeWhile_append_of_pos hs]
    cases rest with
    | nil => simp
    | cons d r => simp [List.takeWhile_cons, hr d rfl]
  have h2 : (c :: (w' ++ rest)).dropWhile (fun d => !stops term d) = rest := by
    rw [← List.cons_append, List.dropWhile_append_of_pos hs]
    cases rest with
    | nil => simp
    | cons d r => simp [List.dropWhile_cons, hr d rfl]
  rw [h1, h2]

theorem stops_word (c : Char) : stops [',', '=', '(', ')', '{', '}', ';'] c = isTermChar c := by
  unfold stops isTermChar
  simp only [List.contains_cons, List.contains_nil, Bool.or_false, Bool.or_assoc]

theorem word_plain (w rest : List Char) (hw : Plain w) (hr : isTerm rest = true) : word (w ++ rest) = (w, skipcom rest) := by
  unfold word
  refine ctos_plain _ _ _ _ hw.ne hw.graph ?_ ?_ ?_
  · intro c hc
    have := hw.noTerm c hc
    rw [← stops_word] at this
    unfold stops at this
    exact (Bool.or_eq_false_iff.mp this).2
  · intro c hc
    have h1 : c ≠ '"' := fun e => hw.noQuote.1 (by rw [hc, e])
    have h2 : c ≠ '\'' := fun e => hw.noQuote.2 (by rw [hc, e])
    have h3 : c ≠ '{' := by
      intro e
      have := hw.noTerm c (List.mem_of_mem_head? hc)
      rw [e] at this
      cases this
    simp [List.lookup, beq_false_of_ne h1, beq_false_of_ne h2, beq_false_of_ne h3]
  · intro c hc
    cases rest with
    | nil => cases hc
    | cons d r => simp only [List.head?_cons, Option.some.injEq] at hc; subst hc; rw [stops_word]; exact hr

theorem Plain.next {w : List Char} (hw : Plain w) (rest : List Char) : Next (w ++ rest) := by
  obtain ⟨c, w', rfl⟩ := List.exists_cons_of_ne_nil hw.ne
  exact .inr ⟨c, w' ++ rest, rfl, hw.graph c (by simp), fun e => by
    have := hw.noTerm c (by simp); rw [e] at this; cases this⟩

theorem text_next (l : List (List Char × Gap)) (z : List Char) (hl : Good z l) (hz : Next z) : Next (text l z) := by
  cases l with
  | nil => exact hz
  | cons a l => obtain ⟨w, g⟩ := a; exact hl.1.next _

theorem word_text (w : List Char) (g : Gap) (l : List (List Char × Gap)) (z : List Char) (hl : Good z ((w, g) :: l)) (hz : Next z) :
    word (text ((w, g) :: l) z) = (w, text l z) := by
  change word (w ++ (g.text ++ text l z)) = _
  rw [word_plain w _ hl.1 hl.2.2.1, skipcom_gap g hl.2.1 _ (text_next l z hl.2.2.2 hz)]

theorem match1_plain (set : List Char) (w rest : List Char) (hw : Plain w) (hs : ∀ c ∈ set, isTermChar c = true) :
    match1 set (w ++ rest) = false := by
  obtain ⟨c, w', rfl⟩ := List.exists_cons_of_ne_nil hw.ne
  unfold match1
  rw [List.cons_append]
  simp only
  cases h : set.contains c with
  | false => rfl
  | true =>
    have := hs c (by simpa using h)
    rw [hw.noTerm c (by simp)] at this
    cases this

theorem skip1b_plain (set : List Char) (w rest : List Char) (hw : Plain w) (hs : ∀ c ∈ set, isTermChar c = true) :
    skip1b set (w ++ rest) = (false, w ++ rest) := by
  unfold skip1b
  rw [(hw.next rest).skipbl, match1_plain set w rest hw hs]
  simp

theorem skip1b_hit (set : List Char) (c : Char) (r : List Char) (hg : isGraph c = true) (hc : set.contains c = true) :
    skip1b set (c :: r) = (true, skipbl r) := by
  unfold skip1b
  rw [skipbl_cons r hg]
  simp only [match1, hc, if_true, List.tail_cons]

theorem skip1b_miss (set : List Char) (c : Char) (r : List Char) (hg : isGraph c = true) (hc : set.contains c = false) :
    skip1b set (c :: r) = (false, c :: r) := by
  unfold skip1b
  rw [skipbl_cons r hg]
  simp only [match1, hc, Bool.false_eq_true, if_false]

/-! ## Counting -/

/-- what the loop answers at the end of the words -/
def ending (paren : Bool) (max min tail i : ℤ) : List Char → Option ℤ
  | [] => some (atEnd max min tail i)
  | c :: _ =>
    if paren = true ∧ c = ')' then some i
    else if c = '(' ∨ c = '{' ∨ c = '}' ∨ c = ')' then some (if i > max + tail then max else i - tail)
    else if c = '=' then some (if i > max + tail + 1 then max else i - tail - 1)
    else none

theorem round_more (paren : Bool) (max min tail i : ℤ) (spots : List (List Char)) (w : List Char) (g : Gap)
    (l : List (List Char × Gap)) (hl : l ≠ []) (z : List Char) (hG : Good z ((w, g) :: l)) (hz : Next z) :
    countRound paren max min tail i spots (text ((w, g) :: l) z) = .inr (i + 1, spots ++ [text l z], text l z) := by
  unfold countRound
  rw [word_text w g l z hG hz]
  obtain ⟨⟨w2, g2⟩, l2, rfl⟩ := List.exists_cons_of_ne_nil hl
  have hP : Plain w2 := hG.2.2.2.1
  simp only [text]
  unfold countTest
  rw [skip1b_plain _ _ _ hP (by decide), skip1b_plain _ _ _ hP (by decide), skip1b_plain _ _ _ hP (by decide), (hP.next _).skipbl]
  have : w2 ++ (g2.text ++ text l2 z) ≠ [] := by simp [hP.ne]
  simp [this]

theorem round_last (paren : Bool) (max min tail i : ℤ) (spots : List (List Char)) (w : List Char) (g : Gap)
    (z : List Char) (hG : Good z [(w, g)]) (hz : Next z) (n : ℤ) (he : ending paren max min tail (i + 1) z = some n) :
    countRound paren max min tail i spots (text [(w, g)] z) = .inl ⟨n, i + 1, spots ++ [z]⟩ := by
  unfold countRound
  rw [word_text w g [] z hG hz]
  simp only [text]
  unfold countTest
  rcases hz with rfl | ⟨c, r, rfl, hg, hc⟩
  · simp only [ending, Option.some.injEq] at he
    subst he
    simp [skip1b, skipbl, match1]
  · rw [skipbl_cons r hg]
    simp only [ending] at he
    by_cases h1 : paren = true ∧ c = ')'
    · rw [if_pos h1] at he
      obtain ⟨h1, rfl⟩ := h1
      simp only [Option.some.injEq] at he
      rw [skip1b_hit _ _ _ hg (by decide)]
      simp [h1, he]
    · rw [if_neg h1] at he
      have n1 : ¬ (paren = true ∧ (skip1b [')'] (c :: r)).1 = true) := by
        rintro ⟨a, b⟩
        by_cases hcc : c = ')'
        · exact h1 ⟨a, hcc⟩
        · rw [skip1b_miss _ _ _ hg (by simp [hcc])] at b; cases b
      rw [if_neg n1, if_neg (by simp)]
      by_cases h2 : c = '(' ∨ c = '{' ∨ c = '}' ∨ c = ')'
      · rw [if_pos h2] at he
        rw [skip1b_hit _ _ _ hg (by rcases h2 with rfl | rfl | rfl | rfl <;> decide)]
        simp only [Option.some.injEq] at he
        simp [he]
      · rw [if_neg h2] at he
        have : ['(', '{', '}', ')'].contains c = false := by
          simp only [not_or] at h2
          simp [h2]
        rw [skip1b_miss _ _ _ hg this]
        simp only [Bool.false_eq_true, if_false]
        by_cases h3 : c = '='
        · rw [if_pos h3] at he
          subst h3
          rw [skip1b_hit _ _ _ hg (by decide)]
          simp only [Option.some.injEq] at he
          simp only [if_true, he]
        · rw [if_neg h3] at he; cases he

theorem loop_words (paren : Bool) (max min tail : ℤ) (z : List Char) (hz : Next z) : ∀ (l : List (List Char × Gap)) (_ : l ≠ []) (m : ℕ)
    (i : ℤ) (spots : List (List Char)) (_ : Good z l) (n : ℤ) (_ : ending paren max min tail (i + l.length) z = some n),
    countLoop paren max min tail (l.length + m) i spots (text l z) = some ⟨n, i + l.length, spots ++ tails z l⟩ := by
  intro l
  induction l with
  | nil => intro h; exact absurd rfl h
  | cons a l ih =>
    intro _ m i spots hG n he
    obtain ⟨w, g⟩ := a
    have e : ((w, g) :: l).length + m = (l.length + m) + 1 := by simp; omega
    rw [e]
    unfold countLoop
    by_cases hl : l = []
    · subst hl
      rw [round_last paren max min tail i spots w g z hG hz n (by simpa using he)]
      simp [tails, text]
    · rw [round_more paren max min tail i spots w g l hl z hG hz]
      simp only
      rw [ih hl m (i + 1) _ hG.2.2.2 n (by rw [← he]; congr 1; push_cast [List.length_cons]; ring)]
      simp only [tails, List.length_cons, List.append_assoc, List.cons_append, List.nil_append]
      congr 2
      push_cast; ring

theorem tails_get (z : List Char) : ∀ (l : List (List Char × Gap)) (k : ℕ), k ≤ l.length → (text l z :: tails z l)[k]? = some (text (l.drop k) z) := by
  intro l
  induction l with
  | nil => intro k hk; simp at hk; subst hk; rfl
  | cons a l ih =>
    intro k hk
    obtain ⟨w, g⟩ := a
    cases k with
    | zero => rfl
    | succ k =>
      have := ih k (by simpa using hk)
      simp only [tails]
      rw [List.getElem?_cons_succ, this]
      rfl

/-- the words of a line without brackets around the nodes -/
theorem count_words (max min tail : ℤ) (l : List (List Char × Gap)) (hl : l ≠ []) (z : List Char) (hz : Next z) (hG : Good z l) (m k : ℕ)
    (hk : k ≤ l.length) (he : ending false max min tail l.length z = some (k : ℤ)) :
    countPorts (l.length + m) max min tail 0 (text l z) = some (.ok k (text (l.drop k) z)) := by
  unfold countPorts
  have hp : skip1b ['('] (text l z) = (false, text l z) := by
    obtain ⟨⟨w, g⟩, l2, rfl⟩ := List.exists_cons_of_ne_nil hl
    exact skip1b_plain _ _ _ hG.1 (by decide)
  rw [hp]
  simp only
  rw [loop_words false max min tail z hz l hl m 0 [text l z] hG k (by simpa using he)]
  simp only
  rw [if_neg (by omega)]
  have := tails_get z l k hk
  simp only [List.cons_append, List.nil_append, sub_zero, Int.toNat_natCast]
  rw [this]

/-- **C74**: nodes, a tail, then `name=…`: the nodes are counted. -/
theorem count_pairs (max min : ℤ) (nodes tl : List (List Char × Gap)) (name : List Char × Gap) (r : List Char) (m : ℕ)
    (hG : Good ('=' :: r) (nodes ++ tl ++ [name])) (hmax : (nodes.length : ℤ) ≤ max) :
    countPorts ((nodes ++ tl ++ [name]).length + m) max min tl.length 0 (text (nodes ++ tl ++ [name]) ('=' :: r))
      = some (.ok nodes.length (text (tl ++ [name]) ('=' :: r))) := by
  rw [count_words max min tl.length _ (by simp) _ (.inr ⟨'=', r, rfl, by decide, by decide⟩) hG m nodes.length (by simp)]
  · simp
  · simp only [ending, List.length_append, List.length_singleton]
    rw [if_neg (by simp), if_neg (by decide)]
    simp only [if_true]
    rw [if_neg (by push_cast; omega)]
    congr 1; push_cast; ring

/-- **C74**: nodes and a tail up to the end of the line: the nodes are counted. -/
theorem count_end (max min : ℤ) (nodes tl : List (List Char × Gap)) (m : ℕ) (hne : nodes ++ tl ≠ [])
    (hG : Good [] (nodes ++ tl)) (hmin : min ≤ nodes.length) (hmax : (nodes.length : ℤ) ≤ max) :
    countPorts ((nodes ++ tl).length + m) max min tl.length 0 (text (nodes ++ tl) [])
      = some (.ok nodes.length (text tl [])) := by
  rw [count_words max min tl.length _ hne _ (.inl rfl) hG m nodes.length (by simp)]
  · simp
  · simp only [ending, atEnd, List.length_append]
    congr 1
    push_cast
    split
    · omega
    · split
      · omega
      · rw [if_pos (by omega)]; ring

/-- **C74**: nodes and a tail, then a bracket: the nodes are counted. -/
theorem count_bracket (max min : ℤ) (nodes tl : List (List Char × Gap)) (c : Char) (hc : c = '(' ∨ c = '{') (r : List Char) (m : ℕ)
    (hne : nodes ++ tl ≠ []) (hG : Good (c :: r) (nodes ++ tl)) (hmax : (nodes.length : ℤ) ≤ max) :
    countPorts ((nodes ++ tl).length + m) max min tl.length 0 (text (nodes ++ tl) (c :: r))
      = some (.ok nodes.length (text tl (c :: r))) := by
  have hn : Next (c :: r) := .inr ⟨c, r, rfl, by rcases hc with rfl | rfl <;> decide, by rcases hc with rfl | rfl <;> decide⟩
  rw [count_words max min tl.length _ hne _ hn hG m nodes.length (by simp)]
  · simp
  · simp only [ending, List.length_append]
    rw [if_neg (by simp), if_pos (by rcases hc with rfl | rfl <;> simp), if_neg (by push_cast; omega)]
    congr 1; push_cast; ring

/-- **C74**: nodes in parentheses: they are counted, whatever the limits and the tail. -/
theorem count_paren (max min tail : ℤ) (b : List Char) (hb : ∀ c ∈ b, isSpace c = true) (nodes : List (List Char × Gap)) (hne : nodes ≠ [])
    (r : List Char) (m : ℕ) (hG : Good (')' :: r) nodes) :
    countPorts (nodes.length + m) max min tail 0 ('(' :: b ++ text nodes (')' :: r)) = some (.ok nodes.length (')' :: r)) := by
  have hz : Next (')' :: r) := .inr ⟨')', r, rfl, by decide, by decide⟩
  unfold countPorts
  have hp : skip1b ['('] ('(' :: b ++ text nodes (')' :: r)) = (true, text nodes (')' :: r)) := by
    rw [List.cons_append, skip1b_hit _ _ _ (by decide) (by decide), skipbl_blanks _ _ hb, (text_next nodes _ hG hz).skipbl]
  rw [hp]
  simp only
  rw [loop_words true max min tail _ hz nodes hne m 0 _ hG nodes.length (by simp [ending])]
  simp only
  rw [if_neg (by omega)]
  have := tails_get (')' :: r) nodes nodes.length le_rfl
  simp only [List.cons_append, List.nil_append, sub_zero, Int.toNat_natCast]
  rw [this]
  simp [text]

/-- **C74**: without `=` or brackets the number is that of the words without the tail, but not below the least nor above the
greatest number of nodes, unless there are fewer words.  A word that belongs to neither nodes nor tail is taken for a node as
long as the device has room. -/
theorem count_guess (max min tail : ℤ) (l : List (List Char × Gap)) (hl : l ≠ []) (hG : Good [] l) (m : ℕ) (h0 : 0 ≤ min) (h1 : min ≤ max)
    (ht : 0 ≤ tail) :
    ∃ k : ℕ, countPorts (l.length + m) max min tail 0 (text l []) = some (.ok k (text (l.drop k) [])) ∧
      (k : ℤ) = if (l.length : ℤ) ≤ min then (l.length : ℤ) else Max.max min (Min.min max (l.length - tail)) := by
  have hA : atEnd max min tail l.length = if (l.length : ℤ) ≤ min then (l.length : ℤ) else Max.max min (Min.min max (l.length - tail)) := by
    unfold atEnd
    split
    · rfl
    · split
      · omega
      · split
        · omega
        · omega
  have hpos : 0 ≤ atEnd max min tail l.length ∧ atEnd max min tail l.length ≤ l.length := by
    unfold atEnd
    split <;> [skip; split <;> [skip; split]] <;> omega
  refine ⟨(atEnd max min tail l.length).toNat, ?_, ?_⟩
  · exact count_words max min tail l hl [] (.inl rfl) hG m _ (by omega) (by simp only [ending]; congr 1; omega)
  · rw [← hA]; omega

/-- for checking concrete words -/
theorem plain_of (w : List Char) (h : (w != [] && w.all (fun c => isGraph c && !isTermChar c) && w.head? != some '"' && w.head? != some '\'') = true) :
    Plain w := by
  simp only [Bool.and_eq_true, bne_iff_ne, ne_eq, List.all_eq_true, Bool.not_eq_true'] at h
  exact ⟨h.1.1.1, fun c hc => (h.1.1.2 c hc).1, fun c hc => (h.1.1.2 c hc).2, h.1.2, h.2⟩

theorem good_cons (w : List Char) (l : List (List Char × Gap)) (z : List Char)
    (h : (w != [] && w.all (fun c => isGraph c && !isTermChar c) && w.head? != some '"' && w.head? != some '\'') = true) (hG : Good z l) :
    Good z ((w, ⟨[' '], false, []⟩) :: l) :=
  ⟨plain_of w h, ⟨by simp [isSpace], by simp⟩, rfl, hG⟩

/-- `1 2 3 m w =1`, a device of three or four nodes -/
example : countPorts 9 4 3 1 0 ['1',' ','2',' ','3',' ','m',' ','w',' ','=','1'] = some (.ok 3 ['m',' ','w',' ','=','1']) :=
  count_pairs 4 3 [(['1'], ⟨[' '], false, []⟩), (['2'], ⟨[' '], false, []⟩), (['3'], ⟨[' '], false, []⟩)] [(['m'], ⟨[' '], false, []⟩)]
    (['w'], ⟨[' '], false, []⟩) ['1'] 4
    (good_cons _ _ _ rfl (good_cons _ _ _ rfl (good_cons _ _ _ rfl (good_cons _ _ _ rfl (good_cons _ _ _ rfl trivial))))) (by decide)

/-- `1 2 3 m ` -/
example : countPorts 9 4 3 1 0 ['1',' ','2',' ','3',' ','m',' '] = some (.ok 3 ['m',' ']) :=
  count_end 4 3 [(['1'], ⟨[' '], false, []⟩), (['2'], ⟨[' '], false, []⟩), (['3'], ⟨[' '], false, []⟩)] [(['m'], ⟨[' '], false, []⟩)] 5 (by simp)
    (good_cons _ _ _ rfl (good_cons _ _ _ rfl (good_cons _ _ _ rfl (good_cons _ _ _ rfl trivial)))) (by decide) (by decide)

/-- `1 2 m {v}` -/
example : countPorts 9 2 2 1 0 ['1',' ','2',' ','m',' ','{','v','}'] = some (.ok 2 ['m',' ','{','v','}']) :=
  count_bracket 2 2 [(['1'], ⟨[' '], false, []⟩), (['2'], ⟨[' '], false, []⟩)] [(['m'], ⟨[' '], false, []⟩)] '{' (.inr rfl) ['v','}'] 6 (by simp)
    (good_cons _ _ _ rfl (good_cons _ _ _ rfl (good_cons _ _ _ rfl trivial))) (by decide)

/-- `( 1 2 ) m 5` -/
example : countPorts 9 4 3 1 0 ['(',' ','1',' ','2',' ',')',' ','m',' ','5'] = some (.ok 2 [')',' ','m',' ','5']) :=
  count_paren 4 3 1 [' '] (by simp [isSpace]) [(['1'], ⟨[' '], false, []⟩), (['2'], ⟨[' '], false, []⟩)] (by simp) [' ','m',' ','5'] 7
    (good_cons _ _ _ rfl (good_cons _ _ _ rfl trivial))

/-- `c b e m 2 `, a transistor with a model and an area: the model is taken for the fourth node -/
example : countPorts 9 4 3 1 0 ['c',' ','b',' ','e',' ','m',' ','2',' '] = some (.ok 4 ['2',' ']) := by
  obtain ⟨k, h1, h2⟩ := count_guess 4 3 1 [(['c'], ⟨[' '], false, []⟩), (['b'], ⟨[' '], false, []⟩), (['e'], ⟨[' '], false, []⟩),
    (['m'], ⟨[' '], false, []⟩), (['2'], ⟨[' '], false, []⟩)] (by simp)
    (good_cons _ _ _ rfl (good_cons _ _ _ rfl (good_cons _ _ _ rfl (good_cons _ _ _ rfl (good_cons _ _ _ rfl trivial))))) 4 (by decide) (by decide) (by decide)
  have : k = 4 := by simp at h2; omega
  subst this
  exact h1

/-! ## The end of the loop -/

theorem skipbl_suffix (s : List Char) : skipbl s <:+ s := by
  induction s with
  | nil => exact List.suffix_refl _
  | cons c r ih =>
    by_cases h : isGraph c = true
    · rw [skipbl_cons r h]; exact List.suffix_refl _
    · have : skipbl (c :: r) = skipbl r := by conv_lhs => unfold skipbl
                                              rw [if_neg h]
      rw [this]
      exact ih.trans (List.suffix_cons _ _)

theorem skipcom_suffix (s : List Char) : skipcom s <:+ s := by
  unfold skipcom
  have h := skipbl_suffix s
  split
  · rename_i r e
    rw [e] at h
    exact (skipbl_suffix r).trans ((List.suffix_cons _ _).trans h)
  · exact h

theorem quoted_suffix (b e : Char) (s : List Char) : ∀ (n : ℕ) (esc : Bool), (quoted b e n esc s).2 <:+ s := by
  induction s with
  | nil => intro n esc; exact List.suffix_refl _
  | cons c r ih =>
    intro n esc
    have S := List.suffix_cons c r
    unfold quoted
    split
    · exact (ih _ _).trans S
    · split
      · split
        · exact S
        · exact (ih _ _).trans S
      · split
        · exact (ih _ _).trans S
        · split
          · exact (ih _ _).trans S
          · exact (ih _ _).trans S

theorem word_suffix (s : List Char) : (word s).2 <:+ skipbl s := by
  unfold word ctos
  simp only
  cases hs : skipbl s with
  | nil => exact List.suffix_refl _
  | cons c r =>
    simp only
    split
    · exact (skipcom_suffix _).trans ((quoted_suffix _ _ _ _ _).trans (List.suffix_cons _ _))
    · exact (skipcom_suffix _).trans (List.dropWhile_suffix _)

/-- a word that is not at a terminator takes something -/
theorem word_moves (c : Char) (r : List Char) (hg : isGraph c = true) (hc : c = ',' ∨ c = '{' ∨ isTermChar c = false) :
    (word (c :: r)).2.length < (c :: r).length := by
  unfold word ctos
  simp only
  rw [skipbl_cons r hg]
  simp only
  split
  · have h1 := ((skipcom_suffix (quoted c (by assumption) 1 false r).2).trans (quoted_suffix _ _ _ _ _)).length_le
    simp only [List.length_cons]
    omega
  · rename_i hq
    simp only [stops_word]
    rcases hc with rfl | rfl | hc
    · have : List.dropWhile (fun c => !isTermChar c) (',' :: r) = ',' :: r := by
        rw [List.dropWhile_cons]; simp [show isTermChar ',' = true from by decide]
      rw [this]
      have : skipcom (',' :: r) = skipbl r := by
        unfold skipcom; rw [skipbl_cons r (by decide)]; rfl
      rw [this]
      have := (skipbl_suffix r).length_le
      simp only [List.length_cons]
      omega
    · exact absurd hq (by decide)
    · have : List.dropWhile (fun c => !isTermChar c) (c :: r) = List.dropWhile (fun c => !isTermChar c) r := by
        rw [List.dropWhile_cons]; simp [hc]
      rw [this]
      have := ((skipcom_suffix (List.dropWhile (fun c => !isTermChar c) r)).trans (List.dropWhile_suffix _)).length_le
      simp only [List.length_cons]
      omega

/-- a round that does not end the loop takes something from the text, unless it stands before a semicolon -/
theorem round_moves (paren : Bool) (max min tail i : ℤ) (spots : List (List Char)) (s : List Char) (hs : ';' ∉ s)
    (i' : ℤ) (spots' : List (List Char)) (s' : List Char) (h : countRound paren max min tail i spots s = .inr (i', spots', s')) :
    s'.length < s.length ∧ ';' ∉ s' := by
  unfold countRound countTest at h
  split at h
  · cases h
  split at h
  · cases h
  rename_i n1 n2
  split at h
  · cases h
  split at h
  · cases h
  rename_i n3 n4
  simp only [Sum.inr.injEq, Prod.mk.injEq] at h
  obtain ⟨-, -, rfl⟩ := h
  have hw := word_suffix s
  have hb := skipbl_suffix s
  have hsuf : skipbl (word s).2 <:+ s := (skipbl_suffix _).trans (hw.trans hb)
  refine ⟨?_, fun hm => hs (hsuf.subset hm)⟩
  have hlen := hsuf.length_le
  cases hk : skipbl s with
  | nil =>
    exfalso
    rw [hk] at hw
    have := List.suffix_nil.mp hw
    rw [this] at n2
    exact n2 rfl
  | cons c r =>
    have hg : isGraph c = true := by
      by_contra hg
      have h2 := skipbl_idem s
      rw [hk] at h2
      unfold skipbl at h2
      rw [if_neg hg] at h2
      have := (skipbl_suffix r).length_le
      rw [h2] at this
      simp at this
    have hlen2 : (c :: r).length ≤ s.length := by rw [← hk]; exact hb.length_le
    have hwe : word s = word (c :: r) := by
      unfold word ctos
      rw [skipbl_cons r hg, hk]
    by_cases hc : c = ',' ∨ c = '{' ∨ isTermChar c = false
    · have h1 := word_moves c r hg hc
      have h2 := (skipbl_suffix (word s).2).length_le
      rw [hwe] at h2 ⊢
      omega
    · exfalso
      simp only [not_or, Bool.not_eq_false] at hc
      obtain ⟨c1, c2, c3⟩ := hc
      have hsemi : c ≠ ';' := by
        intro e
        apply hs
        apply hb.subset
        rw [hk, e]; simp
      have hcases : c = '=' ∨ c = '(' ∨ c = ')' ∨ c = '}' := by
        unfold isTermChar at c3
        rw [graph_not_space hg] at c3
        simp only [Bool.false_or, Bool.or_eq_true, beq_iff_eq] at c3
        tauto
      have hwr : (word (c :: r)).2 = c :: r := by
        unfold word ctos
        rw [skipbl_cons r hg]
        simp only
        have hq : ([('"', '"'), ('\'', '\''), ('{', '}')] : List (Char × Char)).lookup c = none := by
          rcases hcases with rfl | rfl | rfl | rfl <;> decide
        rw [hq]
        simp only [stops_word]
        have : List.dropWhile (fun c => !isTermChar c) (c :: r) = c :: r := by
          rw [List.dropWhile_cons]; simp [c3]
        rw [this]
        exact Next.skipcom (.inr ⟨c, r, rfl, hg, c1⟩)
      rw [hwe, hwr] at n3 n4
      rcases hcases with rfl | rfl | rfl | rfl
      · exact n4 (by rw [skip1b_hit _ _ _ hg (by decide)])
      · exact n3 (by rw [skip1b_hit _ _ _ hg (by decide)])
      · exact n3 (by rw [skip1b_hit _ _ _ hg (by decide)])
      · exact n3 (by rw [skip1b_hit _ _ _ hg (by decide)])

theorem loop_ends (paren : Bool) (max min tail : ℤ) : ∀ (n : ℕ) (i : ℤ) (spots : List (List Char)) (s : List Char), ';' ∉ s → s.length < n →
    countLoop paren max min tail n i spots s ≠ none := by
  intro n
  induction n with
  | zero => intro i spots s _ h; omega
  | succ n ih =>
    intro i spots s hs hn
    unfold countLoop
    cases h : countRound paren max min tail i spots s with
    | inl f => simp
    | inr x =>
      obtain ⟨i', spots', s'⟩ := x
      obtain ⟨h1, h2⟩ := round_moves paren max min tail i spots s hs i' spots' s' h
      exact ih i' spots' s' h2 (by omega)

theorem skip1b_suffix (set s : List Char) : (skip1b set s).2 <:+ s := by
  unfold skip1b
  split
  · exact (skipbl_suffix _).trans ((List.tail_suffix _).trans (skipbl_suffix _))
  · exact skipbl_suffix _

/-- **C74**: on a line without a semicolon counting comes to an end. -/
theorem count_ends (n : ℕ) (max min tail start : ℤ) (s : List Char) (hs : ';' ∉ s) (hn : s.length < n) :
    countPorts n max min tail start s ≠ none := by
  unfold countPorts
  simp only
  have hS := skip1b_suffix ['('] s
  have := loop_ends (skip1b ['('] s).1 max min tail n start [(skip1b ['('] s).2] (skip1b ['('] s).2 (fun h => hs (hS.subset h))
    (by have := hS.length_le; omega)
  cases h : countLoop (skip1b ['('] s).1 max min tail n start [(skip1b ['('] s).2] (skip1b ['('] s).2 with
  | none => exact absurd h this
  | some f =>
    simp only
    split
    · simp
    · split <;> simp

theorem loop_hangs (paren : Bool) (max min tail : ℤ) (r : List Char) : ∀ (n : ℕ) (l : List (List Char × Gap)) (i : ℤ) (spots : List (List Char)),
    Good (';' :: r) l → countLoop paren max min tail n i spots (text l (';' :: r)) = none := by
  have hz : Next (';' :: r) := .inr ⟨';', r, rfl, by decide, by decide⟩
  have key : ∀ (i : ℤ) (spots : List (List Char)), countTest paren max min tail i spots (';' :: r) = .inr (i, spots, ';' :: r) := by
    intro i spots
    unfold countTest
    rw [skip1b_miss _ _ _ (by decide) (by decide), skip1b_miss _ _ _ (by decide) (by decide), skip1b_miss _ _ _ (by decide) (by decide),
      skipbl_cons _ (by decide)]
    simp
  intro n
  induction n with
  | zero => intros; rfl
  | succ n ih =>
    intro l i spots hG
    unfold countLoop
    cases l with
    | nil =>
      have hw : (word (';' :: r)).2 = ';' :: r := by
        unfold word ctos
        rw [skipbl_cons r (by decide)]
        simp only
        rw [show ([('"', '"'), ('\'', '\''), ('{', '}')] : List (Char × Char)).lookup ';' = none from by decide]
        simp only [stops_word]
        have : List.dropWhile (fun c => !isTermChar c) (';' :: r) = ';' :: r := by
          rw [List.dropWhile_cons]; simp [show isTermChar ';' = true from by decide]
        rw [this]
        exact hz.skipcom
      have : countRound paren max min tail i spots (';' :: r) = .inr (i + 1, spots ++ [';' :: r], ';' :: r) := by
        unfold countRound
        rw [hw, key]
      change (match countRound paren max min tail i spots (';' :: r) with | .inl f => some f | .inr (i, spots, s) => countLoop paren max min tail n i spots s) = none
      rw [this]
      exact ih [] _ _ trivial
    | cons a l =>
      obtain ⟨w, g⟩ := a
      by_cases hl : l = []
      · subst hl
        have : countRound paren max min tail i spots (text [(w, g)] (';' :: r)) = .inr (i + 1, spots ++ [';' :: r], ';' :: r) := by
          unfold countRound
          rw [word_text w g [] _ hG hz]
          simp only [text]
          rw [key]
        rw [this]
        exact ih [] _ _ trivial
      · rw [round_more paren max min tail i spots w g l hl _ hG hz]
        exact ih l _ _ hG.2.2.2

/-- **C74, violated**: a line whose words are followed by a comment behind a semicolon is never read to its end: the loop stays at
the semicolon and notes the place, again and again (lang_spice.cc:135-175). -/
theorem semicolon_hangs (max min tail start : ℤ) (l : List (List Char × Gap)) (r : List Char) (hG : Good (';' :: r) l) (n : ℕ) :
    countPorts n max min tail start (text l (';' :: r)) = none := by
  have hz : Next (';' :: r) := .inr ⟨';', r, rfl, by decide, by decide⟩
  unfold countPorts
  have hp : skip1b ['('] (text l (';' :: r)) = (false, text l (';' :: r)) := by
    cases l with
    | nil => exact skip1b_miss _ _ _ (by decide) (by decide)
    | cons a l => obtain ⟨w, g⟩ := a; exact skip1b_plain _ _ _ hG.1 (by decide)
  rw [hp]
  simp only
  rw [loop_hangs false max min tail r n l start _ hG]

/-- `1 2 m ; x` -/
example (n : ℕ) : countPorts n 2 2 1 0 ['1',' ','2',' ','m',' ',';',' ','x'] = none :=
  semicolon_hangs 2 2 1 0 [(['1'], ⟨[' '], false, []⟩), (['2'], ⟨[' '], false, []⟩), (['m'], ⟨[' '], false, []⟩)] [' ','x']
    (good_cons _ _ _ rfl (good_cons _ _ _ rfl (good_cons _ _ _ rfl trivial))) n

example : countPorts 9 2 2 1 0 ['1',' ','2',' ','m'] ≠ none := count_ends 9 2 2 1 0 _ (by decide) (by decide)

theorem loop_range (paren : Bool) (max min tail start : ℤ) (ht : 0 ≤ tail) : ∀ (n : ℕ) (i : ℤ) (spots : List (List Char)) (s : List Char) (f : Found),
    start ≤ i → (spots.length : ℤ) = i - start + 1 → countLoop paren max min tail n i spots s = some f →
    f.num ≤ f.i ∧ (f.spots.length : ℤ) = f.i - start + 1 := by
  intro n
  induction n with
  | zero => intro i spots s f _ _ h; cases h
  | succ n ih =>
    intro i spots s f hi hl h
    unfold countLoop at h
    cases hr : countRound paren max min tail i spots s with
    | inl g =>
      rw [hr] at h
      simp only [Option.some.injEq] at h
      subst h
      unfold countRound countTest at hr
      have hL : (((spots ++ [(word s).2]).length : ℕ) : ℤ) = i + 1 - start + 1 := by
        rw [List.length_append]; push_cast; simp; omega
      split at hr
      · cases hr; exact ⟨le_rfl, hL⟩
      split at hr
      · cases hr
        refine ⟨?_, hL⟩
        change atEnd max min tail (i + 1) ≤ i + 1
        unfold atEnd
        split <;> [skip; split <;> [skip; split]] <;> omega
      split at hr
      · cases hr
        refine ⟨?_, hL⟩
        change (if i + 1 > max + tail then max else i + 1 - tail) ≤ i + 1
        split <;> omega
      split at hr
      · cases hr
        refine ⟨?_, hL⟩
        change (if i + 1 > max + tail + 1 then max else i + 1 - tail - 1) ≤ i + 1
        split <;> omega
      · cases hr
    | inr x =>
      obtain ⟨i', spots', s'⟩ := x
      rw [hr] at h
      simp only at h
      have he : i' = i + 1 ∧ spots' = spots ++ [(word s).2] := by
        unfold countRound countTest at hr
        split at hr
        · cases hr
        split at hr
        · cases hr
        split at hr
        · cases hr
        split at hr
        · cases hr
        · simp only [Sum.inr.injEq, Prod.mk.injEq] at hr
          exact ⟨hr.1.symm, hr.2.1.symm⟩
      obtain ⟨rfl, rfl⟩ := he
      exact ih _ _ _ f (by omega) (by rw [List.length_append]; push_cast; simp; omega) h

/-- **C74**: whatever the line, `count_ports` returns to a place it has noted. -/
theorem count_inside (n : ℕ) (max min tail start : ℤ) (ht : 0 ≤ tail) (s : List Char) :
    countPorts n max min tail start s ≠ some .outside := by
  unfold countPorts
  simp only
  cases h : countLoop (skip1b ['('] s).1 max min tail n start [(skip1b ['('] s).2] (skip1b ['('] s).2 with
  | none => simp
  | some f =>
    obtain ⟨h1, h2⟩ := loop_range _ max min tail start ht n start _ _ f le_rfl (by simp) h
    simp only
    split
    · simp
    · rename_i hn
      have : (f.num - start).toNat < f.spots.length := by omega
      rw [List.getElem?_eq_getElem this]
      simp

/-- a line with fewer words than nodes and tail: there is no place to go back to, and it is noticed -/
example : countPorts 3 2 2 1 0 ['=','1'] = some .whatsThis := by decide +kernel
example : countPorts 3 2 2 1 0 ['=','1'] ≠ some .outside := count_inside 3 2 2 1 0 (by decide) _

/-! ## Listing and reading back -/

/-- the text begins with the pattern, case as set -/
def Starts (ci : Bool) (p w : List Char) : Prop := ∃ m rest, w = m ++ rest ∧ Same ci m p

/-- one of the words that stand between nodes -/
def Reserved (ci : Bool) (w : List Char) : Prop :=
  Same ci w ['p','o','l','y'] ∨ Same ci w ['p','w','l'] ∨ Same ci w ['v','c','c','a','p'] ∨ Same ci w ['v','c','g'] ∨ Same ci w ['v','c','r']

/-- a parameter name: graphic characters without `=`, and no comma, bracket, quote, sign, point or digit in front -/
structure ArgName (w : List Char) : Prop where
  ne : w ≠ []
  graph : ∀ c ∈ w, isGraph c = true
  noEq : '=' ∉ w
  head : ∀ c, w.head? = some c →
    c ∉ [',', '(', '\'', '{', '+', '-', '.', '0', '1', '2', '3', '4', '5', '6', '7', '8', '9']

/-- a value that can stand on a line as it is: graphic characters without `,` `=` `;` `)`, and no quote or bracket in front -/
structure ArgValue (w : List Char) : Prop where
  ne : w ≠ []
  graph : ∀ c ∈ w, isGraph c = true
  noTerm : ∀ c ∈ w, c ∉ [',', '=', ';', ')']
  head : ∀ c, w.head? = some c → c ∉ ['"', '\'', '{', '(']

theorem same_noTerm (ci : Bool) (m p : List Char) (h : Same ci m p) (hp : ∀ c ∈ p, isTermChar c = false) : ∀ c ∈ m, isTermChar c = false := by
  induction h with
  | nil => intro c hc; cases hc
  | @cons a b m p hd hs ih =>
    intro c hc
    rcases List.mem_cons.mp hc with rfl | hc
    · cases hT : isTermChar c with
      | false => rfl
      | true =>
        have := eqc_term ci c b hd hT
        have h2 := hp b (by simp)
        rw [this, hT] at h2
        cases h2
    · exact ih (fun d hd => hp d (by simp [hd])) c hc

/-- a piece without ends of words, at the front of a text, is within its first word -/
theorem prefix_of_word (m w : List Char) : ∀ (r1 r2 : List Char), m ++ r1 = w ++ r2 → (∀ c ∈ m, isTermChar c = false) → isTerm r2 = true →
    ∃ q, w = m ++ q := by
  induction m generalizing w with
  | nil => intro r1 r2 _ _ _; exact ⟨w, rfl⟩
  | cons c m ih =>
    intro r1 r2 e hm hr
    cases w with
    | nil =>
      exfalso
      rw [List.nil_append] at e
      rw [← e, List.cons_append] at hr
      simp only [isTerm, hm c (by simp), Bool.false_eq_true] at hr
    | cons d w =>
      simp only [List.cons_append, List.cons.injEq] at e
      obtain ⟨q, hq⟩ := ih w r1 r2 e.2 (fun x hx => hm x (by simp [hx])) hr
      exact ⟨q, by rw [hq, e.1]; rfl⟩

theorem segText_lits (p : List Char) (r : List Seg) : segText (p.map .lit ++ r) = p ++ segText r := by
  simp only [segText, List.flatMap_append, List.flatMap_map, Seg.text]
  simp [List.flatMap_singleton']

theorem umatch_lits_fail (ci : Bool) (p w rest : List Char) (hp : ∀ c ∈ p, special c = false) (ht : ∀ c ∈ p, isTermChar c = false)
    (hr : isTerm rest = true) (hn : Next (w ++ rest)) (h : ¬ Starts ci p w) : umatch ci p (w ++ rest) = .fail := by
  have e : p = segText (p.map .lit ++ []) := by rw [segText_lits]; simp [segText]
  have hwf : ∀ s ∈ p.map Seg.lit ++ [], s.wf = true := by
    intro s hs
    rw [List.append_nil] at hs
    obtain ⟨c, hc, rfl⟩ := List.mem_map.mp hs
    simp [Seg.wf, hp c hc]
  rw [e, umatch_single ci _ hwf, hn.skipbl]
  cases hm : segMatch ci (p.map Seg.lit ++ []) (w ++ rest) with
  | none => rfl
  | some y =>
    exfalso
    obtain ⟨m, r1, e1, hs, -⟩ := (segMatch_lits ci p [] _ y).mp hm
    obtain ⟨q, hq⟩ := prefix_of_word m w r1 rest e1.symm (same_noTerm ci m p hs ht) hr
    exact h ⟨m, q, hq, hs⟩

theorem hits_key (ci : Bool) (k w rest : List Char) (hp : ∀ c ∈ k, special c = false) (ht : ∀ c ∈ k, isTermChar c = false)
    (hw : Plain w) (hr : isTerm rest = true) (h : hits ci (k ++ [' ']) (w ++ rest) = true) : Same ci w k := by
  have e : k ++ [' '] = segText (k.map .lit ++ [.delim]) := by rw [segText_lits]; rfl
  have hwf : ∀ s ∈ k.map Seg.lit ++ [.delim], s.wf = true := by
    intro s hs
    rcases List.mem_append.mp hs with hs | hs
    · obtain ⟨c, hc, rfl⟩ := List.mem_map.mp hs
      simp [Seg.wf, hp c hc]
    · simp only [List.mem_singleton] at hs; rw [hs]; rfl
  unfold hits at h
  rw [e, umatch_single ci _ hwf, (hw.next rest).skipbl] at h
  cases hm : segMatch ci (k.map Seg.lit ++ [.delim]) (w ++ rest) with
  | none => rw [hm] at h; cases h
  | some y =>
    obtain ⟨m, r1, e1, hs, h1⟩ := (segMatch_lits ci k [.delim] _ y).mp hm
    simp only [segMatch] at h1
    have hr1 : isTerm r1 = true := by
      by_contra hc
      rw [if_neg hc] at h1
      cases h1
    obtain ⟨q, hq⟩ := prefix_of_word m w r1 rest e1.symm (same_noTerm ci m k hs ht) hr
    obtain ⟨q', hq'⟩ := prefix_of_word w m rest r1 e1 hw.noTerm hr1
    have : q = [] := by
      rw [hq'] at hq
      have := congrArg List.length hq
      simp only [List.length_append] at this
      exact List.length_eq_zero_iff.mp (by omega)
    rw [this, List.append_nil] at hq
    rw [hq]
    exact hs

theorem no_keys (ci : Bool) (w rest : List Char) (hw : Plain w) (hr : isTerm rest = true) (h : ¬ Reserved ci w) :
    keys.any (fun k => hits ci k (w ++ rest)) = false := by
  rw [Bool.eq_false_iff]
  intro hk
  rw [List.any_eq_true] at hk
  obtain ⟨k, hk, hh⟩ := hk
  simp only [keys, List.mem_cons, List.not_mem_nil, or_false] at hk
  apply h
  rcases hk with rfl | rfl | rfl | rfl | rfl
  · exact .inl (hits_key ci ['p','o','l','y'] w rest (by decide) (by decide) hw hr hh)
  · exact .inr (.inl (hits_key ci ['p','w','l'] w rest (by decide) (by decide) hw hr hh))
  · exact .inr (.inr (.inl (hits_key ci ['v','c','c','a','p'] w rest (by decide) (by decide) hw hr hh)))
  · exact .inr (.inr (.inr (.inl (hits_key ci ['v','c','g'] w rest (by decide) (by decide) hw hr hh))))
  · exact .inr (.inr (.inr (.inr (hits_key ci ['v','c','r'] w rest (by decide) (by decide) hw hr hh))))

/-- the ports are read up to the closing parenthesis -/
theorem ports_paren (ci keysOn : Bool) (max : ℕ) (r : List Char) : ∀ (l : List (List Char × Gap)) (left : ℕ) (acc : List (List Char)),
    Good (')' :: r) l → (∀ a ∈ l, ¬ Reserved ci a.1) → l.length ≤ left → acc.length + l.length ≤ max →
    portsLoop ci keysOn true max left acc (text l (')' :: r)) = .ok (acc ++ l.map Prod.fst) (skipbl r) := by
  have hz : Next (')' :: r) := .inr ⟨')', r, rfl, by decide, by decide⟩
  intro l
  induction l with
  | nil =>
    intro left acc _ _ _ _
    unfold portsLoop
    change (if true = true ∧ (skip1b [')'] (')' :: r)).1 = true then _ else _) = _
    rw [skip1b_hit [')'] ')' r (by decide) (by decide)]
    simp [text, skip1b_hit [')'] ')' r (by decide) (by decide)]
  | cons a l ih =>
    intro left acc hG hk hl hm
    obtain ⟨w, g⟩ := a
    obtain ⟨left, rfl⟩ : ∃ k, left = k + 1 := ⟨left - 1, by simp at hl; omega⟩
    have hP : Plain w := hG.1
    have e0 : text ((w, g) :: l) (')' :: r) = w ++ (g.text ++ text l (')' :: r)) := rfl
    have ew := word_text w g l _ hG hz
    have ek := no_keys ci w (g.text ++ text l (')' :: r)) hP hG.2.2.1 (hk (w, g) (by simp))
    have ene : w ++ (g.text ++ text l (')' :: r)) ≠ [] := by simp [hP.ne]
    unfold portsLoop
    rw [e0] at ew ⊢
    have hs := skip1b_plain [')'] w (g.text ++ text l (')' :: r)) hP (by decide)
    simp only [hs, Bool.false_eq_true, and_false, if_false, if_true, (hP.next _).skipbl, ene, ek, ew]
    have hlen : (text l (')' :: r)).length ≠ (w ++ (g.text ++ text l (')' :: r))).length := by
      have : 0 < w.length := List.length_pos_iff.mpr hP.ne
      simp only [List.length_append]
      omega
    rw [if_neg hlen, if_neg (by simp at hm; omega)]
    rw [ih left (acc ++ [w]) hG.2.2.2 (fun a ha => hk a (by simp [ha])) (by simpa using hl) (by simp at hm ⊢; omega)]
    simp

/-- a blank behind each -/
def spaced (ports : List (List Char)) : List (List Char × Gap) := ports.map fun w => (w, ⟨[' '], false, []⟩)

theorem listNames_text (ports : List (List Char)) (hne : ports ≠ []) (z : List Char) : listNames ports ++ ' ' :: z = text (spaced ports) z := by
  induction ports with
  | nil => exact absurd rfl hne
  | cons w ws ih =>
    cases ws with
    | nil => simp [listNames, spaced, text, Gap.text]
    | cons v vs =>
      have := ih (by simp)
      have e1 : listNames (w :: v :: vs) = w ++ ' ' :: listNames (v :: vs) := rfl
      rw [e1]
      have e2 : text (spaced (w :: v :: vs)) z = w ++ ([' '] ++ text (spaced (v :: vs)) z) := by simp [spaced, text, Gap.text]
      rw [e2, ← this]
      simp

theorem spaced_good (ports : List (List Char)) (z : List Char) (h : ∀ w ∈ ports, Plain w) : Good z (spaced ports) := by
  induction ports with
  | nil => trivial
  | cons w ws ih =>
    refine ⟨h w (by simp), ⟨?_, ?_⟩, rfl, ih fun v hv => h v (by simp [hv])⟩
    · intro c hc
      have : c = ' ' := List.mem_singleton.mp hc
      rw [this]; rfl
    · intro c hc; cases hc

/-- the label, the ports and the type of a listed line are read back -/
theorem read_head (ci keysOn : Bool) (n : ℕ) (c : Class) (label type A : List Char) (ports : List (List Char))
    (hl : Plain label) (hdot : label.head? ≠ some '.') (hst : ¬ Starts ci ['*', '>'] label) (hp : ∀ w ∈ ports, Plain w)
    (hr : ∀ w ∈ ports, ¬ Reserved ci w) (ht : Plain type) (hmin : c.min ≤ ports.length) (hmax : ports.length ≤ c.max) (hn : ports.length < n) :
    parseInst ci keysOn n c (label ++ listPorts ports ++ [' ', ' '] ++ type ++ ' ' :: A)
      = (parseArgs ci n c.vname (skipcom (' ' :: A))).map fun args => ⟨label, ports, type, args⟩ := by
  obtain ⟨B, hB⟩ : ∃ B, B = type ++ ' ' :: A := ⟨_, rfl⟩
  have e0 : label ++ listPorts ports ++ [' ', ' '] ++ type ++ ' ' :: A
      = label ++ (' ' :: '(' :: ' ' :: (listNames ports ++ ' ' :: ')' :: ' ' :: ' ' :: B)) := by
    rw [hB]; simp [listPorts]
  rw [e0]
  obtain ⟨R, hR⟩ : ∃ R, R = '(' :: ' ' :: (listNames ports ++ ' ' :: ')' :: ' ' :: ' ' :: B) := ⟨_, rfl⟩
  rw [← hR]
  have hTR : isTerm (' ' :: R) = true := rfl
  have hum : umatch ci ['*', '>'] (label ++ ' ' :: R) = .fail :=
    umatch_lits_fail ci ['*', '>'] label (' ' :: R) (by decide) (by decide) hTR (hl.next _) hst
  have hd : skip1b ['.'] (label ++ ' ' :: R) = (false, label ++ ' ' :: R) := by
    obtain ⟨d, l', rfl⟩ := List.exists_cons_of_ne_nil hl.ne
    refine skip1b_miss _ _ _ (hl.graph d (by simp)) ?_
    have : d ≠ '.' := fun e => hdot (by rw [e]; rfl)
    simp [this]
  have hNR : Next R := .inr ⟨'(', _, hR, by decide, by decide⟩
  have hw : word (label ++ ' ' :: R) = (label, R) := by
    rw [word_plain _ _ hl hTR]
    have := skipcom_gap ⟨[' '], false, []⟩ ⟨by simp [isSpace], by simp⟩ R hNR
    simp only [Gap.text, Bool.false_eq_true, if_false, List.append_nil, List.cons_append, List.nil_append] at this
    rw [this]
  have hz : Next (')' :: ' ' :: ' ' :: B) := .inr ⟨')', _, rfl, by decide, by decide⟩
  have hcp : ∃ k : ℕ, ports.length ≤ k ∧ ∃ rest, countPorts n c.max c.min 1 0 R = some (.ok k rest) := by
    by_cases hne : ports = []
    · subst hne
      refine ⟨1, by simp, ')' :: ' ' :: ' ' :: B, ?_⟩
      obtain ⟨n, rfl⟩ : ∃ k, n = k + 1 := ⟨n - 1, by omega⟩
      have e1 : R = '(' :: ' ' :: ' ' :: ')' :: ' ' :: ' ' :: B := by rw [hR]; rfl
      rw [e1]
      unfold countPorts
      have hp1 : skip1b ['('] ('(' :: ' ' :: ' ' :: ')' :: ' ' :: ' ' :: B) = (true, ')' :: ' ' :: ' ' :: B) := by
        rw [skip1b_hit _ _ _ (by decide) (by decide)]
        rfl
      rw [hp1]
      simp only
      unfold countLoop
      have hw2 : (word (')' :: ' ' :: ' ' :: B)).2 = ')' :: ' ' :: ' ' :: B := by
        unfold word ctos
        rw [skipbl_cons _ (by decide)]
        simp only
        rw [show ([('"', '"'), ('\'', '\''), ('{', '}')] : List (Char × Char)).lookup ')' = none from by decide]
        simp only [stops_word]
        have : List.dropWhile (fun c => !isTermChar c) (')' :: ' ' :: ' ' :: B) = ')' :: ' ' :: ' ' :: B := by
          rw [List.dropWhile_cons]; simp [show isTermChar ')' = true from by decide]
        rw [this]
        exact hz.skipcom
      have : countRound true c.max c.min 1 0 [')' :: ' ' :: ' ' :: B] (')' :: ' ' :: ' ' :: B)
          = .inl ⟨1, 1, [')' :: ' ' :: ' ' :: B, ')' :: ' ' :: ' ' :: B]⟩ := by
        unfold countRound countTest
        rw [hw2, skip1b_hit [')'] ')' _ (by decide) (by decide)]
        simp
      rw [this]
      rfl
    · refine ⟨ports.length, le_rfl, ')' :: ' ' :: ' ' :: B, ?_⟩
      have e1 : R = '(' :: [' '] ++ text (spaced ports) (')' :: ' ' :: ' ' :: B) := by
        rw [hR, ← listNames_text ports hne]; rfl
      have hlen : (spaced ports).length = ports.length := by simp [spaced]
      have := count_paren c.max c.min 1 [' '] (by simp [isSpace]) (spaced ports) (by simpa [spaced] using hne) (' ' :: ' ' :: B)
        (n - ports.length) (spaced_good ports _ hp)
      rw [hlen, show ports.length + (n - ports.length) = n from by omega] at this
      rw [e1]
      exact this
  obtain ⟨k, hk, rest, hc⟩ := hcp
  have hpp : parsePorts ci keysOn c.max k R = .ok ports B := by
    unfold parsePorts
    have e1 : skip1b ['('] R = (true, text (spaced ports) (')' :: ' ' :: ' ' :: B)) := by
      rw [hR, skip1b_hit _ _ _ (by decide) (by decide)]
      by_cases hne : ports = []
      · subst hne; rfl
      · rw [listNames_text ports hne]
        have h1 : skipbl (' ' :: text (spaced ports) (')' :: ' ' :: ' ' :: B)) = skipbl (text (spaced ports) (')' :: ' ' :: ' ' :: B)) := rfl
        rw [h1, (text_next _ _ (spaced_good ports _ hp) hz).skipbl]
    rw [e1]
    simp only
    rw [ports_paren ci keysOn c.max _ (spaced ports) k [] (spaced_good ports _ hp) ?_ (by simpa [spaced] using hk) (by simpa [spaced] using hmax)]
    · have h1 : skipbl (' ' :: ' ' :: B) = skipbl B := rfl
      rw [h1, hB, (ht.next _).skipbl]
      simp [spaced, List.map_map, Function.comp_def]
    · intro a ha
      obtain ⟨w, hw, rfl⟩ := List.mem_map.mp ha
      exact hr w hw
  have hwt : word B = (type, skipcom (' ' :: A)) := by rw [hB]; exact word_plain _ _ ht rfl
  unfold parseInst
  rw [hum]
  simp only [hd, Bool.false_eq_true, if_false, hw, hl.ne, hc, Int.toNat_natCast, hpp, if_neg (show ¬ ports.length < c.min by omega), hwt]
  cases parseArgs ci n c.vname (skipcom (' ' :: A)) <;> rfl

theorem ArgName.next {w : List Char} (h : ArgName w) (rest : List Char) : Next (w ++ rest) := by
  obtain ⟨c, w', rfl⟩ := List.exists_cons_of_ne_nil h.ne
  refine .inr ⟨c, w' ++ rest, rfl, h.graph c (by simp), ?_⟩
  intro e
  exact h.head c rfl (by rw [e]; simp)

theorem args_next (args : List (List Char × List Char)) (h : ∀ a ∈ args, ArgName a.1) :
    ∃ t, Next t ∧ skipbl (args.flatMap listArg) = t ∧ skipcom (args.flatMap listArg) = t ∧ skipcom (' ' :: args.flatMap listArg) = t := by
  cases args with
  | nil => exact ⟨[], .inl rfl, rfl, rfl, rfl⟩
  | cons a l =>
    have hN := (h a (by simp)).next ('=' :: a.2 ++ l.flatMap listArg)
    have e : (a :: l).flatMap listArg = ' ' :: (a.1 ++ ('=' :: a.2 ++ l.flatMap listArg)) := by simp [listArg]
    refine ⟨_, hN, ?_, ?_, ?_⟩
    · rw [e]; exact hN.skipbl
    · rw [e]; exact skipcom_gap ⟨[' '], false, []⟩ ⟨by simp [isSpace], by simp⟩ _ hN
    · rw [e]; exact skipcom_gap ⟨[' ', ' '], false, []⟩ ⟨by simp [isSpace], by simp⟩ _ hN

theorem stops_eq (c : Char) (h : c = '=' ∨ c = ' ') : stops ['='] c = true := by rcases h with rfl | rfl <;> decide

/-- one pair -/
theorem args_pair (n : ℕ) (acc : List (List Char × List Char)) (nm v rest t : List Char) (hn : ArgName nm) (hv : ArgValue v)
    (hr : ∀ c, rest.head? = some c → stops [',', '=', ';', ')'] c = true) (ht : skipcom rest = t) :
    argsLoop false (n + 1) acc (nm ++ '=' :: v ++ rest) = argsLoop false n (acc ++ [(nm, v)]) t := by
  have e0 : nm ++ '=' :: v ++ rest = nm ++ ('=' :: (v ++ rest)) := by simp
  rw [e0]
  have hN := hn.next ('=' :: (v ++ rest))
  have hne : nm ++ ('=' :: (v ++ rest)) ≠ [] := by simp
  have h1 : ctos ['='] [] (nm ++ ('=' :: (v ++ rest))) = (nm, '=' :: (v ++ rest)) := by
    rw [ctos_plain ['='] [] nm _ hn.ne hn.graph (fun c hc => by
      have : c ≠ '=' := fun e => hn.noEq (e ▸ hc)
      simp [this]) (fun _ _ => rfl) (fun c hc => by
      simp only [List.head?_cons, Option.some.injEq] at hc; subst hc; decide)]
    rw [Next.skipcom (.inr ⟨'=', _, rfl, by decide, by decide⟩)]
  have hvN : skipbl (v ++ rest) = v ++ rest := by
    obtain ⟨c, v', rfl⟩ := List.exists_cons_of_ne_nil hv.ne
    exact skipbl_cons _ (hv.graph c (by simp))
  have h2 : skip1b ['='] ('=' :: (v ++ rest)) = (true, v ++ rest) := by
    rw [skip1b_hit _ _ _ (by decide) (by decide), hvN]
  have h3 : ctos [',', '=', ';', ')'] [('"', '"'), ('\'', '\''), ('{', '}'), ('(', ')')] (v ++ rest) = (v, t) := by
    rw [ctos_plain _ _ v rest hv.ne hv.graph (fun c hc => by simpa using hv.noTerm c hc) (fun c hc => by
      have := hv.head c hc
      simp only [List.mem_cons, List.not_mem_nil, or_false, not_or] at this
      simp [List.lookup, beq_false_of_ne this.1, beq_false_of_ne this.2.1, beq_false_of_ne this.2.2.1, beq_false_of_ne this.2.2.2]) hr, ht]
  conv_lhs => unfold argsLoop
  simp only [Bool.false_eq_true, false_and, if_false, hN.skipbl, hne, h1, h2, h3]
  rw [if_neg]
  intro e
  have h4 := (skipcom_suffix rest).length_le
  rw [ht] at h4
  simp only [List.length_append, List.length_cons] at e
  omega

theorem args_loop : ∀ (args : List (List Char × List Char)) (n : ℕ) (acc : List (List Char × List Char)), args.length < n →
    (∀ a ∈ args, ArgName a.1 ∧ ArgValue a.2) → argsLoop false n acc (skipbl (args.flatMap listArg)) = some (acc ++ args) := by
  intro args
  induction args with
  | nil =>
    intro n acc hn _
    obtain ⟨n, rfl⟩ : ∃ k, n = k + 1 := ⟨n - 1, by simp at hn; omega⟩
    simp [argsLoop, skipbl]
  | cons a l ih =>
    intro n acc hn h
    obtain ⟨nm, v⟩ := a
    obtain ⟨n, rfl⟩ : ∃ k, n = k + 1 := ⟨n - 1, by simp at hn; omega⟩
    obtain ⟨h1, h2⟩ := h (nm, v) (by simp)
    have e : skipbl (((nm, v) :: l).flatMap listArg) = nm ++ '=' :: v ++ l.flatMap listArg := by
      have e1 : ((nm, v) :: l).flatMap listArg = ' ' :: (nm ++ ('=' :: v ++ l.flatMap listArg)) := by simp [listArg]
      rw [e1]
      have : skipbl (' ' :: (nm ++ ('=' :: v ++ l.flatMap listArg))) = skipbl (nm ++ ('=' :: v ++ l.flatMap listArg)) := rfl
      rw [this, (h1.next _).skipbl]
      simp
    rw [e]
    obtain ⟨t, -, ht1, ht2, -⟩ := args_next l fun a ha => (h a (by simp [ha])).1
    rw [args_pair n acc nm v _ t h1 h2 ?_ ht2, ← ht1, ih n _ (by simpa using hn) fun a ha => h a (by simp [ha])]
    · simp
    · intro c hc
      cases l with
      | nil => cases hc
      | cons b l =>
        have : c = ' ' := by simpa [listArg] using hc.symm
        rw [this]; decide

/-- no unnamed value is taken from a list of pairs -/
theorem args_start (ci : Bool) (n : ℕ) (vname nm rest : List Char) (hn : ArgName nm) (hs : ¬ Starts ci ['p','a','r','a','m','s',':'] nm) :
    parseArgs ci n vname (nm ++ '=' :: rest) = argsLoop false n [] (nm ++ '=' :: rest) := by
  have hN := hn.next ('=' :: rest)
  have hum : umatch ci ['p','a','r','a','m','s',':'] (nm ++ '=' :: rest) = .fail :=
    umatch_lits_fail ci _ nm ('=' :: rest) (by decide) (by decide) rfl hN hs
  unfold parseArgs
  rw [hum]
  simp only
  obtain ⟨c, nm', rfl⟩ := List.exists_cons_of_ne_nil hn.ne
  have hh := hn.head c rfl
  have e1 : skip1b ['('] (c :: nm' ++ '=' :: rest) = (false, c :: nm' ++ '=' :: rest) :=
    skip1b_miss _ _ _ (hn.graph c (by simp)) (by
      simp only [List.mem_cons, List.not_mem_nil, or_false, not_or] at hh
      simp [hh])
  rw [e1]
  have e2 : match1 ['+','-','.','0','1','2','3','4','5','6','7','8','9'] (c :: nm' ++ '=' :: rest) = false := by
    simp only [List.mem_cons, List.not_mem_nil, or_false, not_or] at hh
    simp [match1, hh]
  have e3 : match1 ['\'', '{'] (c :: nm' ++ '=' :: rest) = false := by
    simp only [List.mem_cons, List.not_mem_nil, or_false, not_or] at hh
    simp [match1, hh]
  simp only [e2, e3, Bool.false_eq_true, if_false]

/-- what a line says can be listed as it is -/
structure Listable (ci : Bool) (c : Class) (x : Inst) : Prop where
  label : Plain x.label
  noDot : x.label.head? ≠ some '.'
  noMark : ¬ Starts ci ['*', '>'] x.label
  ports : ∀ w ∈ x.ports, Plain w
  noKey : ∀ w ∈ x.ports, ¬ Reserved ci w
  type : Plain x.type
  min : c.min ≤ x.ports.length
  max : x.ports.length ≤ c.max

/-- **C74**: the listing of an instance, read again, is the instance: label, nodes in order, type, and parameters in order with
their values, provided names and values are such that they can stand on a line as they are. -/
theorem list_read (ci keysOn : Bool) (n : ℕ) (c : Class) (x : Inst) (h : Listable ci c x)
    (ha : ∀ a ∈ x.args, ArgName a.1 ∧ ArgValue a.2 ∧ ¬ Starts ci ['p','a','r','a','m','s',':'] a.1)
    (hn : x.ports.length < n) (hn' : x.args.length < n) : parseInst ci keysOn n c (listInst x) = some x := by
  have e : listInst x = x.label ++ listPorts x.ports ++ [' ', ' '] ++ x.type ++ ' ' :: x.args.flatMap listArg := rfl
  rw [e, read_head ci keysOn n c x.label x.type _ x.ports h.label h.noDot h.noMark h.ports h.noKey h.type h.min h.max hn]
  have hA : parseArgs ci n c.vname (skipcom (' ' :: x.args.flatMap listArg)) = some x.args := by
    obtain ⟨t, -, ht1, -, ht3⟩ := args_next x.args fun a h => (ha a h).1
    rw [ht3, ← ht1]
    have hL := args_loop x.args n [] hn' fun a h => ⟨(ha a h).1, (ha a h).2.1⟩
    rw [List.nil_append] at hL
    cases hx : x.args with
    | nil =>
      obtain ⟨n, rfl⟩ : ∃ k, n = k + 1 := ⟨n - 1, by omega⟩
      have hum : umatch ci ['p','a','r','a','m','s',':'] [] = .fail :=
        umatch_lits_fail ci _ [] [] (by decide) (by decide) rfl (.inl rfl) (by
          rintro ⟨m, rest, e, hs⟩
          have : m = [] := by cases m with
            | nil => rfl
            | cons a m => cases e
          subst this
          cases hs)
      simp only [List.flatMap_nil, skipbl]
      unfold parseArgs
      rw [hum]
      simp [skip1b, skipbl, match1, argsLoop]
    | cons a l =>
      rw [hx] at hL
      obtain ⟨nm, v⟩ := a
      obtain ⟨h1, -, h3⟩ := ha (nm, v) (by rw [hx]; simp)
      have e2 : skipbl (((nm, v) :: l).flatMap listArg) = nm ++ '=' :: (v ++ l.flatMap listArg) := by
        have e1 : ((nm, v) :: l).flatMap listArg = ' ' :: (nm ++ ('=' :: v ++ l.flatMap listArg)) := by simp [listArg]
        rw [e1]
        have : skipbl (' ' :: (nm ++ ('=' :: v ++ l.flatMap listArg))) = skipbl (nm ++ ('=' :: v ++ l.flatMap listArg)) := rfl
        rw [this, (h1.next _).skipbl]
        simp
      rw [e2] at hL ⊢
      rw [args_start ci n c.vname nm _ h1 h3, hL]
  rw [hA]
  rfl

theorem not_starts_head (ci : Bool) (p c : Char) (ps w : List Char) (h : eqc ci c p = false) : ¬ Starts ci (p :: ps) (c :: w) := by
  rintro ⟨m, rest, e, hs⟩
  cases hs with
  | cons h1 _ =>
    simp only [List.cons_append, List.cons.injEq] at e
    rw [← e.1, h] at h1
    cases h1

/-- one digit is no reserved word -/
theorem not_reserved_one (ci : Bool) (c : Char) : ¬ Reserved ci [c] := by
  unfold Reserved Same
  rintro (h | h | h | h | h) <;> · cases h with | cons _ h => cases h

/-- the line used below: `X1 ( 1 2 )  s  ` -/
def sample (args : List (List Char × List Char)) : Inst := ⟨['X','1'], [['1'], ['2']], ['s'], args⟩

theorem sample_listable (ci : Bool) (args : List (List Char × List Char)) (max : ℕ) (hm : 2 ≤ max) (v : List Char) : Listable ci ⟨max, 0, v⟩ (sample args) where
  label := plain_of _ rfl
  noDot := by simp [sample]
  noMark := not_starts_head ci '*' 'X' _ _ (by cases ci <;> decide)
  ports := by
    intro w hw
    simp only [sample, List.mem_cons, List.not_mem_nil, or_false] at hw
    rcases hw with rfl | rfl <;> exact plain_of _ rfl
  noKey := by
    intro w hw
    simp only [sample, List.mem_cons, List.not_mem_nil, or_false] at hw
    rcases hw with rfl | rfl <;> exact not_reserved_one ci _
  type := plain_of _ rfl
  min := by simp
  max := hm

/-- `X1 ( 1 2 )  s  w=3k l=-2` -/
example (ci keysOn : Bool) : parseInst ci keysOn 9 ⟨4, 0, []⟩ ['X','1',' ','(',' ','1',' ','2',' ',')',' ',' ','s',' ',' ','w','=','3','k',' ','l','=','-','2']
    = some (sample [(['w'], ['3','k']), (['l'], ['-','2'])]) :=
  list_read ci keysOn 9 ⟨4, 0, []⟩ (sample [(['w'], ['3','k']), (['l'], ['-','2'])]) (sample_listable ci _ 4 (by decide) [])
    (by
      intro a ha
      simp only [sample, List.mem_cons, List.not_mem_nil, or_false] at ha
      rcases ha with rfl | rfl
      · exact ⟨⟨by simp, by decide, by decide, by simp⟩, ⟨by simp, by decide, by decide, by simp⟩, not_starts_head ci 'p' 'w' _ _ (by cases ci <;> decide)⟩
      · exact ⟨⟨by simp, by decide, by decide, by simp⟩, ⟨by simp, by decide, by decide, by simp⟩, not_starts_head ci 'p' 'l' _ _ (by cases ci <;> decide)⟩)
    (by decide) (by decide)

/-! ## Where listing and reading do not agree -/

theorem quoted_plain (b e : Char) (v r : List Char) (h : ∀ c ∈ v, c ≠ e ∧ c ≠ b ∧ c ≠ '\\') : quoted b e 1 false (v ++ e :: r) = (v, r) := by
  induction v with
  | nil => simp [quoted]
  | cons c v ih =>
    obtain ⟨h1, h2, h3⟩ := h c (by simp)
    simp only [List.cons_append, quoted, h1, h2, h3, Bool.false_eq_true, false_and, if_false, ih fun c hc => h c (by simp [hc])]

/-- Specification: text between an opening and a closing quote in which further ones come in pairs -/
inductive Nest (b e : Char) : List Char → Prop
  | nil : Nest b e []
  | plain (c : Char) (v : List Char) (hc : c ≠ e ∧ c ≠ b ∧ c ≠ '\\') (h : Nest b e v) : Nest b e (c :: v)
  | pair (u v : List Char) (hu : Nest b e u) (hv : Nest b e v) : Nest b e (b :: (u ++ e :: v))

theorem quoted_nest {b e : Char} (hbe : b ≠ e) {v : List Char} (h : Nest b e v) : ∀ (n : ℕ) (s : List Char), 1 ≤ n →
    quoted b e n false (v ++ s) = (v ++ (quoted b e n false s).1, (quoted b e n false s).2) := by
  induction h with
  | nil => intro n s _; rfl
  | plain c v hc _ ih =>
    intro n s hn
    obtain ⟨h1, h2, h3⟩ := hc
    simp only [List.cons_append, quoted, h1, h2, h3, Bool.false_eq_true, false_and, if_false, ih n s hn]
  | pair u v _ _ iu iv =>
    intro n s hn
    have e1 : b :: (u ++ e :: v) ++ s = b :: (u ++ e :: (v ++ s)) := by simp
    have e2 : quoted b e (n + 1) false (e :: (v ++ s)) = (e :: (v ++ (quoted b e n false s).1), (quoted b e n false s).2) := by
      simp only [quoted, Bool.false_eq_true, false_and, if_false, if_true, show ¬ (n + 1 ≤ 1) from by omega, Nat.add_sub_cancel, iv n s hn]
    rw [e1]
    conv_lhs => unfold quoted
    simp only [Bool.false_eq_true, false_and, if_false, hbe, if_true, iu (n + 1) _ (by omega), e2]
    simp

/-- behind the pairs the closing quote ends the text -/
theorem quoted_pairs {b e : Char} (hbe : b ≠ e) {v : List Char} (h : Nest b e v) (r : List Char) : quoted b e 1 false (v ++ e :: r) = (v, r) := by
  rw [quoted_nest hbe h 1 _ le_rfl]
  simp [quoted]

theorem Nest.of_plain (b e : Char) : ∀ v : List Char, (∀ c ∈ v, c ≠ e ∧ c ≠ b ∧ c ≠ '\\') → Nest b e v
  | [], _ => .nil
  | c :: v, h => .plain c v (h c (by simp)) (Nest.of_plain b e v fun x hx => h x (by simp [hx]))

/-- Specification: a text to be put in quotes, each quote in it behind a backslash -/
def escape (e : Char) (v : List Char) : List Char := v.flatMap fun c => if c = e then ['\\', c] else [c]

/-- **C74**: a text with quotes in it, each behind a backslash, is read as it is. -/
theorem quoted_escape (e : Char) (he : e ≠ '\\') (v r : List Char) (h : '\\' ∉ v) : quoted e e 1 false (escape e v ++ e :: r) = (v, r) := by
  induction v with
  | nil => simp [quoted, escape]
  | cons c v ih =>
    have ih := ih (fun hx => h (by simp [hx]))
    have hc : c ≠ '\\' := fun hx => h (by simp [hx])
    unfold escape at ih ⊢
    rw [List.flatMap_cons, List.append_assoc]
    by_cases hce : c = e
    · subst hce
      rw [if_pos rfl]
      have h1 : ('\\' : Char) ≠ c := fun hx => he hx.symm
      simp only [List.cons_append, List.nil_append]
      conv_lhs => unfold quoted
      simp only [Bool.false_eq_true, false_and, if_false, h1, if_true]
      conv_lhs => unfold quoted
      simp only [and_self, if_true, ih]
    · rw [if_neg hce]
      simp only [List.cons_append, List.nil_append]
      conv_lhs => unfold quoted
      simp only [Bool.false_eq_true, false_and, if_false, hce, hc, ih]

example : quoted '"' '"' 1 false (escape '"' ['a', '"', 'b'] ++ ['"', 'x']) = (['a', '"', 'b'], ['x']) := by decide

theorem head_of_ne {w : List Char} (h : w ≠ []) (r : List Char) : ∃ c w', w = c :: w' ∧ w ++ r = c :: (w' ++ r) := by
  obtain ⟨c, w', rfl⟩ := List.exists_cons_of_ne_nil h
  exact ⟨c, w', rfl, rfl⟩

/-- A value in braces is read without them (ap_convert.cc:80-114): blanks are part of it, and further braces in pairs. -/
theorem braces_read (ci keysOn : Bool) (n : ℕ) (c : Class) (x : Inst) (h : Listable ci c x) (nm v : List Char) (hn : ArgName nm)
    (hs : ¬ Starts ci ['p','a','r','a','m','s',':'] nm) (hv : Nest '{' '}' v) (hN : x.ports.length < n) (hN' : 1 < n) :
    parseInst ci keysOn n c (listInst { x with args := [(nm, '{' :: v ++ ['}'])] }) = some { x with args := [(nm, v)] } := by
  have e : listInst { x with args := [(nm, '{' :: v ++ ['}'])] }
      = x.label ++ listPorts x.ports ++ [' ', ' '] ++ x.type ++ ' ' :: (' ' :: (nm ++ '=' :: ('{' :: (v ++ ['}'])))) := by
    simp [listInst, listArgs, listArg]
  rw [e, read_head ci keysOn n c x.label x.type _ x.ports h.label h.noDot h.noMark h.ports h.noKey h.type h.min h.max hN]
  have e1 : skipcom (' ' :: ' ' :: (nm ++ '=' :: ('{' :: (v ++ ['}'])))) = nm ++ '=' :: ('{' :: (v ++ ['}'])) :=
    skipcom_gap ⟨[' ', ' '], false, []⟩ ⟨by simp [isSpace], by simp⟩ _ (hn.next _)
  rw [e1, args_start ci n c.vname nm _ hn hs]
  obtain ⟨n, rfl⟩ : ∃ k, n = k + 2 := ⟨n - 2, by omega⟩
  have h1 : ctos ['='] [] (nm ++ '=' :: ('{' :: (v ++ ['}']))) = (nm, '=' :: ('{' :: (v ++ ['}']))) := by
    rw [ctos_plain ['='] [] nm _ hn.ne hn.graph (fun c hc => by
      have : c ≠ '=' := fun e => hn.noEq (e ▸ hc)
      simp [this]) (fun _ _ => rfl) (fun c hc => by
      simp only [List.head?_cons, Option.some.injEq] at hc; subst hc; decide)]
    rw [Next.skipcom (.inr ⟨'=', _, rfl, by decide, by decide⟩)]
  have h2 : skip1b ['='] ('=' :: ('{' :: (v ++ ['}']))) = (true, '{' :: (v ++ ['}'])) := by
    rw [skip1b_hit _ _ _ (by decide) (by decide), skipbl_cons _ (by decide)]
  have h3 : ctos [',', '=', ';', ')'] [('"', '"'), ('\'', '\''), ('{', '}'), ('(', ')')] ('{' :: (v ++ ['}'])) = (v, []) := by
    unfold ctos
    rw [skipbl_cons _ (by decide)]
    simp only
    rw [show ([('"', '"'), ('\'', '\''), ('{', '}'), ('(', ')')] : List (Char × Char)).lookup '{' = some '}' from by decide]
    simp only [quoted_pairs (by decide) hv []]
    rfl
  conv_lhs => unfold argsLoop
  simp only [Bool.false_eq_true, false_and, if_false, (hn.next _).skipbl, h1, h2, h3, show nm ++ '=' :: ('{' :: (v ++ ['}'])) ≠ [] from by simp]
  simp [argsLoop, skipbl]

/-- **C74, violated**: an expression with blanks around an operator is listed without its braces; the listing, read again, has
another value for the parameter and a parameter that is called like the operator (u_parameter.h:145-159, lang_spice.cc:783-788). -/
theorem expression_split (ci keysOn : Bool) (n : ℕ) (c : Class) (x : Inst) (h : Listable ci c x) (nm a op b : List Char) (hn : ArgName nm)
    (hs : ¬ Starts ci ['p','a','r','a','m','s',':'] nm) (ha : ArgValue a) (ho : ArgValue op) (hb : ArgValue b)
    (hN : x.ports.length < n) (hN' : 2 < n) :
    parseInst ci keysOn n c (listInst { x with args := [(nm, a ++ ' ' :: op ++ ' ' :: b)] }) = some { x with args := [(nm, a), (op, b)] } := by
  have e : listInst { x with args := [(nm, a ++ ' ' :: op ++ ' ' :: b)] }
      = x.label ++ listPorts x.ports ++ [' ', ' '] ++ x.type ++ ' ' :: (' ' :: (nm ++ '=' :: (a ++ ' ' :: (op ++ ' ' :: b)))) := by
    simp [listInst, listArgs, listArg]
  rw [e, read_head ci keysOn n c x.label x.type _ x.ports h.label h.noDot h.noMark h.ports h.noKey h.type h.min h.max hN]
  have e1 : skipcom (' ' :: ' ' :: (nm ++ '=' :: (a ++ ' ' :: (op ++ ' ' :: b)))) = nm ++ '=' :: (a ++ ' ' :: (op ++ ' ' :: b)) :=
    skipcom_gap ⟨[' ', ' '], false, []⟩ ⟨by simp [isSpace], by simp⟩ _ (hn.next _)
  rw [e1, args_start ci n c.vname nm _ hn hs]
  obtain ⟨n, rfl⟩ : ∃ k, n = k + 3 := ⟨n - 3, by omega⟩
  have next : ∀ {w : List Char}, ArgValue w → ∀ r, Next (w ++ r) := by
    intro w hw r
    obtain ⟨d, w', rfl, -⟩ := head_of_ne hw.ne r
    refine .inr ⟨d, w' ++ r, rfl, hw.graph d (by simp), fun e => ?_⟩
    exact hw.noTerm d (by simp) (by rw [e]; simp)
  have e2 := args_pair (n + 2) [] nm a (' ' :: (op ++ ' ' :: b)) (op ++ ' ' :: b) hn ha
    (by intro d hd; simp only [List.head?_cons, Option.some.injEq] at hd; subst hd; decide)
    (skipcom_gap ⟨[' '], false, []⟩ ⟨by simp [isSpace], by simp⟩ _ (next ho _))
  have e3 : nm ++ '=' :: a ++ ' ' :: (op ++ ' ' :: b) = nm ++ '=' :: (a ++ ' ' :: (op ++ ' ' :: b)) := by simp
  rw [e3] at e2
  rw [e2]
  have h1 : ctos ['='] [] (op ++ ' ' :: b) = (op, b) := by
    rw [ctos_plain ['='] [] op _ ho.ne ho.graph (fun c hc => by
      have := ho.noTerm c hc
      simp only [List.mem_cons, List.not_mem_nil, or_false, not_or] at this
      simp [this.2.1]) (fun _ _ => rfl) (fun c hc => by
      simp only [List.head?_cons, Option.some.injEq] at hc; subst hc; decide)]
    have := skipcom_gap ⟨[' '], false, []⟩ ⟨by simp [isSpace], by simp⟩ _ (next hb [])
    simp only [Gap.text, Bool.false_eq_true, if_false, List.append_nil, List.cons_append, List.nil_append] at this
    rw [this]
  have h2 : skip1b ['='] b = (false, b) := by
    obtain ⟨d, b', rfl, -⟩ := head_of_ne hb.ne []
    refine skip1b_miss _ _ _ (hb.graph d (by simp)) ?_
    have := hb.noTerm d (by simp)
    simp only [List.mem_cons, List.not_mem_nil, or_false, not_or] at this
    simp [this.2.1]
  have h3 : ctos [',', '=', ';', ')'] [('"', '"'), ('\'', '\''), ('{', '}'), ('(', ')')] b = (b, []) := by
    have := ctos_plain [',', '=', ';', ')'] [('"', '"'), ('\'', '\''), ('{', '}'), ('(', ')')] b [] hb.ne hb.graph
      (fun c hc => by simpa using hb.noTerm c hc) (fun c hc => by
      have := hb.head c hc
      simp only [List.mem_cons, List.not_mem_nil, or_false, not_or] at this
      simp [List.lookup, beq_false_of_ne this.1, beq_false_of_ne this.2.1, beq_false_of_ne this.2.2.1, beq_false_of_ne this.2.2.2])
      (fun c hc => by cases hc)
    rw [List.append_nil] at this
    rw [this]; rfl
  conv_lhs => unfold argsLoop
  simp only [Bool.false_eq_true, false_and, if_false, (next ho _).skipbl, h1, h2, h3, show op ++ ' ' :: b ≠ [] from by simp]
  simp [argsLoop, skipbl]

/-- `w={1 + 2}` is read, and listed, and read again as `w=1` and a parameter `+` of value 2 -/
example (ci keysOn : Bool) :
    parseInst ci keysOn 9 ⟨4, 0, []⟩ (listInst (sample [(['w'], ['{','1',' ','+',' ','2','}'])])) = some (sample [(['w'], ['1',' ','+',' ','2'])]) ∧
    parseInst ci keysOn 9 ⟨4, 0, []⟩ (listInst (sample [(['w'], ['1',' ','+',' ','2'])])) = some (sample [(['w'], ['1']), (['+'], ['2'])]) :=
  ⟨braces_read ci keysOn 9 ⟨4, 0, []⟩ (sample []) (sample_listable ci _ 4 (by decide) []) ['w'] ['1',' ','+',' ','2']
      ⟨by simp, by decide, by decide, by simp⟩ (not_starts_head ci 'p' 'w' _ _ (by cases ci <;> decide)) (Nest.of_plain _ _ _ (by decide)) (by decide) (by decide),
   expression_split ci keysOn 9 ⟨4, 0, []⟩ (sample []) (sample_listable ci _ 4 (by decide) []) ['w'] ['1'] ['+'] ['2']
      ⟨by simp, by decide, by decide, by simp⟩ (not_starts_head ci 'p' 'w' _ _ (by cases ci <;> decide))
      ⟨by simp, by decide, by decide, by simp⟩ ⟨by simp, by decide, by decide, by simp⟩ ⟨by simp, by decide, by decide, by simp⟩
      (by decide) (by decide)⟩

/-- **C74, violated**: of the eight parameters of every component four keep their names when listed: `$mfactor` and the three
coordinates. -/
theorem sysparam_kept (name : String) : (∃ k, sysSet name = some k ∧ sysName k = some name) ↔
    name = "$mfactor" ∨ name = "$xposition" ∨ name = "$yposition" ∨ name = "$zposition" := by
  constructor
  · rintro ⟨k, h1, h2⟩
    unfold sysSet at h1
    split_ifs at h1 with h <;>
      · cases h1
        simp only [sysName, Option.some.injEq] at h2
        subst h2
        simp_all
  · rintro (rfl | rfl | rfl | rfl)
    · exact ⟨0, rfl, rfl⟩
    · exact ⟨1, rfl, rfl⟩
    · exact ⟨2, rfl, rfl⟩
    · exact ⟨3, rfl, rfl⟩

/-- **C74, violated**: an instance flipped horizontally is listed with an angle; read again and listed it has a parameter that
cannot be set at all (e_compon.cc:689-716, 781-802). -/
theorem sysparam_renamed : (sysSet "$hflip").bind sysName = some "$angle" ∧ (sysSet "$vflip").bind sysName = some "$hflip" ∧
    (sysSet "$bflip").bind sysName = some "$vflip" ∧ (sysSet "$angle").bind sysName = some "$sflip" ∧ sysSet "$sflip" = none := by
  decide +kernel

/-- **C74, violated**: the listing of a subcircuit says nothing of its parameters and their defaults: definitions that
differ in them have the same listing. -/
theorem module_params_lost : ¬ ∀ m m' : Module, listModule m = listModule m' → m.params = m'.params := by
  intro h
  have := h ⟨['s'], [['1']], [(['w'], ['1'])], []⟩ ⟨['s'], [['1']], [(['w'], ['2'])], []⟩ rfl
  simp at this

end Gnucap.Spice
