import Verif.SpectreProps

/-!
# Reading and listing in Spectre (C78): nodes without parentheses, subcircuits, models, and what is lost
-/
namespace Gnucap.Spectre
open Gnucap.Scan Gnucap.Spice Gnucap.Opt Gnucap.Vlog

/-! ## Nodes without parentheses -/

/-- `k` steps lead from a text to one two arguments before `=` -/
inductive Lead : ℕ → List Char → List Char → Prop
  | here (h : List Char) (he : match1 ['='] (skiparg (skiparg h)) = true) : Lead 0 h h
  | on (k : ℕ) (h r : List Char) (hl : (skiparg h).length ≠ (skiparg (skiparg h)).length) (he : match1 ['='] (skiparg (skiparg h)) = false)
      (hr : Lead k (skiparg h) r) : Lead (k + 1) h r

theorem backUp_lead {k : ℕ} {h r : List Char} (hl : Lead k h r) : ∀ n, k < n → backUp n h (skiparg h) (skiparg (skiparg h)) = r := by
  induction hl with
  | here h he => intro n hn; obtain ⟨n, rfl⟩ := Nat.exists_eq_succ_of_ne_zero (show n ≠ 0 by omega); simp [backUp, goesOn, he]
  | on k h r hl he _ ih =>
    intro n hn
    obtain ⟨n, rfl⟩ := Nat.exists_eq_succ_of_ne_zero (show n ≠ 0 by omega)
    simp only [backUp, goesOn, hl, he, ne_eq, not_false_eq_true, decide_true, Bool.not_false, Bool.and_self, if_true]
    exact ih n (by omega)

/-- **C78, the search for the type ends**: in any text the loop is left after no more rounds than the text has characters. -/
theorem search_ends (a : List Char) : ∃ k ≤ a.length, goesOn (skiparg^[k + 1] a) (skiparg^[k + 2] a) = false := by
  by_contra hc
  push Not at hc
  have hd : ∀ k, k ≤ a.length + 1 → (skiparg^[k + 1] a).length + k ≤ a.length := by
    intro k
    induction k with
    | zero => intro _; simpa using (skiparg_len a).1
    | succ k ih =>
      intro hk
      have h1 := ih (by omega)
      have h2 := hc k (by omega)
      have h3 := (skiparg_len (skiparg^[k + 1] a)).1
      rw [← Function.iterate_succ_apply' skiparg] at h3
      simp only [Nat.succ_eq_add_one] at h3
      simp only [goesOn, ne_eq, Bool.and_eq_true, Bool.not_eq_false, decide_eq_true_eq] at h2
      have h4 := h2.1
      have e1 : k + 2 = k + 1 + 1 := rfl
      rw [e1] at h4
      omega
  have := hd (a.length + 1) le_rfl
  omega

theorem eq_next (r : List Char) : Next ('=' :: r) := .inr ⟨'=', r, rfl, by decide, by decide⟩

/-- words before `=`: the last but one is found -/
theorem lead_words (r : List Char) (a b : List Char × Gap) : ∀ l : List (List Char × Gap), Good ('=' :: r) (l ++ [a, b]) →
    (∀ x ∈ l ++ [a, b], ∀ c ∈ x.1.tail, isArg c = true) → Lead l.length (text (l ++ [a, b]) ('=' :: r)) (text [a, b] ('=' :: r))
  | [], hG, hA => by
    obtain ⟨wa, ga⟩ := a
    obtain ⟨wb, gb⟩ := b
    apply Lead.here
    have h1 := skiparg_text wa ga [(wb, gb)] ('=' :: r) (hA (wa, ga) (by simp)) hG (eq_next r)
    have h2 := skiparg_text wb gb [] ('=' :: r) (hA (wb, gb) (by simp)) hG.2.2.2 (eq_next r)
    simp only [List.nil_append] at h1 h2 ⊢
    rw [h1, h2]
    simp [text, match1]
  | (w, g) :: l, hG, hA => by
    have hz := eq_next r
    have h1 := skiparg_text w g (l ++ [a, b]) ('=' :: r) (hA (w, g) (by simp)) hG hz
    have hG' : Good ('=' :: r) (l ++ [a, b]) := hG.2.2.2
    have hA' : ∀ x ∈ l ++ [a, b], ∀ c ∈ x.1.tail, isArg c = true := fun x hx => hA x (by simp only [List.cons_append, List.mem_cons]; exact .inr hx)
    have ih := lead_words r a b l hG' hA'
    obtain ⟨w2, g2, m, hm, x3, m', hm'⟩ : ∃ w2 g2 m, l ++ [a, b] = (w2, g2) :: m ∧ ∃ x3 m', m = x3 :: m' := by
      cases l with
      | nil => exact ⟨a.1, a.2, [b], rfl, b, [], rfl⟩
      | cons y l => exact ⟨y.1, y.2, l ++ [a, b], rfl, by cases l <;> simp⟩
    have h2 : skiparg (text (l ++ [a, b]) ('=' :: r)) = text m ('=' :: r) := by
      rw [hm] at hG' hA' ⊢
      exact skiparg_text w2 g2 m ('=' :: r) (hA' (w2, g2) (by simp)) hG' hz
    have hGm : Good ('=' :: r) m := by rw [hm] at hG'; exact hG'.2.2.2
    rw [List.cons_append]
    refine Lead.on _ _ _ ?_ ?_ ?_
    · rw [h1, h2, hm]
      have : w2.length ≠ 0 := by rw [hm] at hG'; simpa using hG'.1.ne
      simp only [text, List.length_append]
      omega
    · rw [h1, h2, hm']
      rw [hm'] at hGm
      obtain ⟨w3, g3⟩ := x3
      exact match1_plain ['='] w3 _ hGm.1 (by decide)
    · rw [h1]; exact ih

theorem text_append (l : List (List Char × Gap)) (m : List (List Char × Gap)) (z : List Char) : text (l ++ m) z = text l (text m z) := by
  induction l with
  | nil => rfl
  | cons a l ih => obtain ⟨w, g⟩ := a; simp only [List.cons_append, text, ih]

theorem good_append : ∀ (l m : List (List Char × Gap)) (z : List Char), Good z (l ++ m) → Good (text m z) l ∧ Good z m
  | [], m, z, h => ⟨trivial, h⟩
  | (w, g) :: l, m, z, h => by
    obtain ⟨h1, h2, h3, h4⟩ := h
    obtain ⟨g1, g2⟩ := good_append l m z h4
    change isTerm (g.text ++ text (l ++ m) z) = true at h3
    rw [text_append] at h3
    exact ⟨⟨h1, h2, h3, g1⟩, g2⟩

/-- the texts of words have no `=` -/
theorem text_noEq : ∀ (l : List (List Char × Gap)) (z : List Char), Good z l → ∃ u, text l z = u ++ z ∧ '=' ∉ u
  | [], z, _ => ⟨[], rfl, by simp⟩
  | (w, g) :: l, z, h => by
    obtain ⟨u, e, hu⟩ := text_noEq l z h.2.2.2
    refine ⟨w ++ (g.text ++ u), by simp [text, e], ?_⟩
    have h1 : '=' ∉ w := fun hm => absurd (h.1.noTerm _ hm) (by decide)
    have h2 : '=' ∉ g.text := by
      obtain ⟨⟨a, b⟩, -⟩ := h.2
      intro hm
      unfold Gap.text at hm
      simp only [List.mem_append] at hm
      rcases hm with (hm | hm) | hm
      · exact absurd (a _ hm) (by decide)
      · split at hm
        · simp at hm
        · cases hm
      · exact absurd (b _ hm) (by decide)
    simp only [List.mem_append, not_or]
    exact ⟨h1, h2, hu⟩

/-- what is found in a line of words with a parameter, nodes not in parentheses -/
theorem bare_type (ci : Bool) (label : List Char) (g : Gap) (l : List (List Char × Gap)) (a b : List Char × Gap) (r : List Char)
    (hG : Good ('=' :: r) ((label, g) :: (l ++ [a, b]))) (hA : ∀ x ∈ (label, g) :: (l ++ [a, b]), ∀ c ∈ x.1.tail, isArg c = true)
    (ho : Ordinary ci label) :
    findType ci (text ((label, g) :: (l ++ [a, b])) ('=' :: r)) = (.type (word (text [a, b] ('=' :: r))).1, text [a, b] ('=' :: r)) := by
  have hz := eq_next r
  have hs := skiparg_text label g (l ++ [a, b]) ('=' :: r) (hA (label, g) (by simp)) hG hz
  have hf : text ((label, g) :: (l ++ [a, b])) ('=' :: r) = label ++ (g.text ++ text (l ++ [a, b]) ('=' :: r)) := rfl
  have hbl : skipbl (text ((label, g) :: (l ++ [a, b])) ('=' :: r)) = label ++ (g.text ++ text (l ++ [a, b]) ('=' :: r)) := (hG.1.next _).skipbl
  have hm : match1 ['('] (text (l ++ [a, b]) ('=' :: r)) = false := by
    have hG' := hG.2.2.2
    obtain ⟨w, g, m, hm⟩ : ∃ w g m, l ++ [a, b] = (w, g) :: m := by
      cases l with
      | nil => exact ⟨a.1, a.2, [b], rfl⟩
      | cons y l => exact ⟨y.1, y.2, l ++ [a, b], rfl⟩
    rw [hm] at hG' ⊢
    exact match1_plain ['('] w _ hG'.1 (by decide)
  obtain ⟨u, hu, hu'⟩ := text_noEq _ _ hG
  have hsc := scan_finds ci '=' sign_eq r ((u ++ '=' :: r).length + 1) u hu' (by simp only [List.length_append, List.length_cons]; omega)
  have hL := lead_words r a b l hG.2.2.2 (fun x hx => hA x (List.mem_cons_of_mem _ hx))
  have hlen := text_length _ _ hG
  simp only [List.length_cons, List.length_append] at hlen
  unfold findType
  rw [hbl, no_comment ci _ _ hG.1 hG.2.2.1 ho, no_control ci _ _ hG.1 hG.2.2.1 ho]
  simp only [Bool.false_eq_true, if_false, hs, hm]
  rw [hu, hsc, ← hu]
  simp only
  rw [backUp_lead hL _ (by omega)]

theorem bare_words (max : ℕ) (z : List Char) (hz : Next z) : ∀ (l : List (List Char × Gap)) (n : ℕ) (acc : List (List Char)), Good z l →
    l.length < n → acc.length ≤ max → portsBare max z.length n acc (text l z) = some ((acc ++ l.map Prod.fst).take max, z)
  | _, 0, _, _, h, _ => absurd h (by omega)
  | [], n + 1, acc, _, _, h => by simp [portsBare, text, List.take_of_length_le h]
  | (w, g) :: l, n + 1, acc, hG, hl, ha => by
    obtain ⟨t1, t2⟩ := take_snoc acc w (l.map Prod.fst) max ha
    have h1 := word_text w g l z hG hz
    have h2 := text_length _ _ hG
    simp only [List.length_cons] at h2 hl
    unfold portsBare
    rw [if_pos (by omega), h1]
    rw [bare_words max z hz l n _ hG.2.2.2 (by omega) t2, t1]
    rfl

/-- **C78, nodes without parentheses**: a line with a label, nodes, type and at least one parameter gives these, whatever blanks and
commas stand between the words, if the words are of those characters the scanner skips as a whole. -/
theorem bare_read (ci : Bool) (max min n : ℕ) (label type nm v : List Char) (g gt : Gap) (nodes : List (List Char × Gap))
    (more : List (List Char × List Char))
    (hG : Good ('=' :: (v ++ more.flatMap argText)) ((label, g) :: (nodes ++ [(type, gt), (nm, ⟨[], false, []⟩)])))
    (hA : ∀ x ∈ (label, g) :: (nodes ++ [(type, gt), (nm, (⟨[], false, []⟩ : Gap))]), ∀ c ∈ x.1.tail, isArg c = true)
    (ho : Ordinary ci label) (hv : ArgValue v) (hm : ∀ a ∈ more, ArgName a.1 ∧ ArgValue a.2)
    (hn : nodes.length < n) :
    parseInst ci max min n (text ((label, g) :: (nodes ++ [(type, gt), (nm, ⟨[], false, []⟩)])) ('=' :: (v ++ more.flatMap argText))) =
      some ⟨some label, (nodes.map Prod.fst).take max ++ List.replicate (min - ((nodes.map Prod.fst).take max).length) ['0'], type, (nm, v) :: more, []⟩ := by
  set R := v ++ more.flatMap argText with hR
  have hz := eq_next R
  have hft := bare_type ci label g nodes (type, gt) (nm, ⟨[], false, []⟩) R hG hA ho
  have hl := word_text label g _ _ hG hz
  obtain ⟨hGn, hGt⟩ := good_append _ _ _ hG.2.2.2
  have hZ : Next (text [(type, gt), (nm, ⟨[], false, []⟩)] ('=' :: R)) := text_next _ _ hGt hz
  have hsk : skip1b ['('] (text (nodes ++ [(type, gt), (nm, ⟨[], false, []⟩)]) ('=' :: R)) =
      (false, text (nodes ++ [(type, gt), (nm, ⟨[], false, []⟩)]) ('=' :: R)) := by
    have hG' := hG.2.2.2
    obtain ⟨w, gw, m, hm⟩ : ∃ w gw m, nodes ++ [(type, gt), (nm, (⟨[], false, []⟩ : Gap))] = (w, gw) :: m := by
      cases nodes with
      | nil => exact ⟨type, gt, _, rfl⟩
      | cons y l => exact ⟨y.1, y.2, _, rfl⟩
    rw [hm] at hG' ⊢
    exact skip1b_plain ['('] w _ hG'.1 (by decide)
  have ht := word_text type gt _ _ hGt hz
  have hnm : ArgName nm := by
    obtain ⟨-, -, -, hpl, -⟩ := hGt
    refine ⟨hpl.ne, hpl.graph, fun hm => absurd (hpl.noTerm _ hm) (by decide), fun hh => ?_⟩
    exact absurd (hpl.noTerm ',' (List.mem_of_mem_head? hh)) (by decide)
  have hall : all (text [(nm, (⟨[], false, []⟩ : Gap))] ('=' :: R)) = ((nm, v) :: more, []) := by
    have h1 : all (' ' :: (nm ++ '=' :: (v ++ more.flatMap argText))) = ((nm, v) :: more, []) := by
      rw [all_arg nm v _ hnm hv (behind_args more) (args_next more fun a ha => (hm a ha).1), all_list more hm]
    rw [← all_skipbl, skipbl_blank, (hnm.next _).skipbl] at h1
    simpa [text, Gap.text, hR] using h1
  have hlen : (text [(nm, (⟨[], false, []⟩ : Gap))] ('=' :: R)).length < (text ((label, g) :: (nodes ++ [(type, gt), (nm, ⟨[], false, []⟩)])) ('=' :: R)).length := by
    have h1 : label.length ≠ 0 := by simpa using hG.1.ne
    rw [show (label, g) :: (nodes ++ [(type, gt), (nm, (⟨[], false, []⟩ : Gap))]) = ((label, g) :: (nodes ++ [(type, gt)])) ++ [(nm, ⟨[], false, []⟩)] from by simp,
      text_append]
    have := text_length ((label, g) :: (nodes ++ [(type, gt)])) (text [(nm, (⟨[], false, []⟩ : Gap))] ('=' :: R)) (by
      have := hG
      rw [show (label, g) :: (nodes ++ [(type, gt), (nm, (⟨[], false, []⟩ : Gap))]) = ((label, g) :: (nodes ++ [(type, gt)])) ++ [(nm, ⟨[], false, []⟩)] from by simp] at this
      exact (good_append _ _ _ this).1)
    simp only [List.length_cons] at this
    omega
  unfold parseInst ports
  rw [hl]
  simp only [hsk, Bool.false_eq_true, if_false, hft]
  rw [text_append, bare_words max _ hZ nodes n [] hGn hn (by simp)]
  simp only [Option.map_some, List.nil_append, ht, named, if_neg hG.1.ne]
  rw [args_all _ _ _ (by omega) (by have := (skipbl_suffix (text [(nm, (⟨[], false, []⟩ : Gap))] ('=' :: R))).length_le; omega), hall]

/-- `r1 a b res r=1` -/
example : Good ['=', '1'] ((['r', '1'], ⟨[' '], false, []⟩) :: ([(['a'], ⟨[' '], true, []⟩), (['b'], ⟨[' '], false, []⟩)] ++
      [(['r', 'e', 's'], ⟨[' '], false, []⟩), (['r'], ⟨[], false, []⟩)])) ∧ Ordinary false ['r', '1'] ∧ ArgValue ['1'] := by
  refine ⟨⟨plain_of _ (by decide), ⟨by decide, by decide⟩, by decide, plain_of _ (by decide), ⟨by decide, by decide⟩, by decide, plain_of _ (by decide),
    ⟨by decide, by decide⟩, by decide, plain_of _ (by decide), ⟨by decide, by decide⟩, by decide, plain_of _ (by decide), ⟨by decide, by decide⟩, by decide, trivial⟩,
    sample_ordinary false, ⟨by decide, by decide, by decide⟩⟩

/-- **C78 fails without parameters**: in a line with a label, nodes and type only the first node is taken for the type, and no node is
set. -/
theorem bare_lost (ci : Bool) (max min n : ℕ) (label node : List Char) (g gn : Gap) (l : List (List Char × Gap))
    (hG : Good [] ((label, g) :: (node, gn) :: l)) (hA : ∀ c ∈ label.tail, isArg c = true) (ho : Ordinary ci label) :
    ∃ a, parseInst ci max min (n + 1) (text ((label, g) :: (node, gn) :: l) []) = some ⟨some label, List.replicate min ['0'], node, a, []⟩ := by
  have hz : Next [] := .inl rfl
  have hs := skiparg_text label g ((node, gn) :: l) [] hA hG hz
  have hl := word_text label g _ _ hG hz
  have hn := word_text node gn _ _ hG.2.2.2 hz
  have hbl : skipbl (text ((label, g) :: (node, gn) :: l) []) = label ++ (g.text ++ text ((node, gn) :: l) []) := (hG.1.next _).skipbl
  have hm : match1 ['('] (text ((node, gn) :: l) []) = false := match1_plain ['('] node _ hG.2.2.2.1 (by decide)
  obtain ⟨u, hu, hu'⟩ := text_noEq _ _ hG
  have hsc : scan ci ['='] ((text ((label, g) :: (node, gn) :: l) []).length + 1) (text ((label, g) :: (node, gn) :: l) []) = none := by
    apply scan_none ci '=' sign_eq
    rw [hu]; simpa using hu'
  have hft : findType ci (text ((label, g) :: (node, gn) :: l) []) = (.type node, text ((node, gn) :: l) []) := by
    unfold findType
    rw [hbl, no_comment ci _ _ hG.1 hG.2.2.1 ho, no_control ci _ _ hG.1 hG.2.2.1 ho]
    simp only [Bool.false_eq_true, if_false, hs, hm, hsc, hn]
  have hsk : skip1b ['('] (text ((node, gn) :: l) []) = (false, text ((node, gn) :: l) []) := skip1b_plain ['('] node _ hG.2.2.2.1 (by decide)
  have hlt : (skipbl (text l [])).length < (text ((label, g) :: (node, gn) :: l) []).length := by
    have h1 : label.length ≠ 0 := by simpa using hG.1.ne
    have h2 := (skipbl_suffix (text l [])).length_le
    simp only [text, List.length_append]
    omega
  unfold parseInst ports
  rw [hl]
  simp only [hsk, Bool.false_eq_true, if_false, hft, portsBare, lt_irrefl, Option.map_some, List.length_nil, Nat.sub_zero, List.nil_append, hn,
    named, if_neg hG.1.ne]
  exact ⟨_, by rw [args_end _ _ _ (Nat.lt_succ_self _) hlt]⟩

/-- `r1 a b res` -/
example : Good [] ((['r', '1'], ⟨[' '], false, []⟩) :: (['a'], ⟨[' '], false, []⟩) :: [(['b'], ⟨[' '], false, []⟩), (['r', 'e', 's'], ⟨[], false, []⟩)]) :=
  ⟨plain_of _ (by decide), ⟨by decide, by decide⟩, by decide, plain_of _ (by decide), ⟨by decide, by decide⟩, by decide, plain_of _ (by decide),
    ⟨by decide, by decide⟩, by decide, plain_of _ (by decide), ⟨by decide, by decide⟩, by decide, trivial⟩

/-! ## A line that is never done -/

/-- a word before a sign that ends words: there is none, and nothing is taken -/
theorem word_stuck (c : Char) (r : List Char) (hc : c = ')' ∨ c = '}' ∨ c = ';') : word (c :: r) = ([], c :: r) := by
  have hg : isGraph c = true := by rcases hc with rfl | rfl | rfl <;> decide
  have hne : c ≠ ',' := by rcases hc with rfl | rfl | rfl <;> decide
  have ht : isTermChar c = true := by rcases hc with rfl | rfl | rfl <;> decide
  have hq : ([('"', '"'), ('\'', '\''), ('{', '}')] : List (Char × Char)).lookup c = none := by rcases hc with rfl | rfl | rfl <;> decide
  unfold word ctos
  simp only [skipbl_cons r hg, hq, stops_word, List.takeWhile_cons, List.dropWhile_cons, ht, Bool.not_true, Bool.false_eq_true, if_false]
  rw [Next.skipcom (.inr ⟨c, r, rfl, hg, hne⟩)]

theorem bare_stuck (max stop : ℕ) (c : Char) (r : List Char) (hc : c = ')' ∨ c = '}' ∨ c = ';') (hs : stop < (c :: r).length) :
    ∀ (n : ℕ) (acc : List (List Char)), portsBare max stop n acc (c :: r) = none
  | 0, _ => rfl
  | n + 1, acc => by
    unfold portsBare
    rw [if_pos hs, word_stuck c r hc]
    exact bare_stuck max stop c r hc hs n _

theorem bare_until (max stop : ℕ) (c : Char) (r : List Char) (hc : c = ')' ∨ c = '}' ∨ c = ';') (hs : stop < (c :: r).length) :
    ∀ (l : List (List Char × Gap)) (n : ℕ) (acc : List (List Char)), Good (c :: r) l → portsBare max stop n acc (text l (c :: r)) = none
  | [], n, acc, _ => bare_stuck max stop c r hc hs n acc
  | _ :: _, 0, _, _ => rfl
  | (w, g) :: l, n + 1, acc, hG => by
    have hz : Next (c :: r) := .inr ⟨c, r, rfl, by rcases hc with rfl | rfl | rfl <;> decide, by rcases hc with rfl | rfl | rfl <;> decide⟩
    have h := text_length _ _ hG
    unfold portsBare
    rw [if_pos (by omega), word_text w g l _ hG hz]
    exact bare_until max stop c r hc hs l n _ hG.2.2.2

/-- a chain of words before a text from which the way is known -/
theorem lead_before (z s : List Char) (k : ℕ) (hz : Next z) (hk : Lead k z s) (h0 : match1 ['='] z = false) (h1 : match1 ['='] (skiparg z) = false)
    (hd : (skiparg z).length < z.length) : ∀ l : List (List Char × Gap), Good z l → (∀ x ∈ l, ∀ c ∈ x.1.tail, isArg c = true) → Lead (k + l.length) (text l z) s
  | [], _, _ => hk
  | (w, g) :: l, hG, hA => by
    have h2 := skiparg_text w g l z (hA (w, g) (by simp)) hG hz
    have ih := lead_before z s k hz hk h0 h1 hd l hG.2.2.2 (fun x hx => hA x (by simp [hx]))
    rw [List.length_cons, ← Nat.add_assoc]
    cases l with
    | nil =>
      refine Lead.on _ _ _ ?_ ?_ ?_
      · rw [h2]; simp only [text]; omega
      · rw [h2]; simpa [text] using h1
      · rw [h2]; exact ih
    | cons a l =>
      obtain ⟨w2, g2⟩ := a
      have hG2 := hG.2.2.2
      have h3 := skiparg_text w2 g2 l z (hA (w2, g2) (by simp)) hG2 hz
      refine Lead.on _ _ _ ?_ ?_ ?_
      · rw [h2, h3]
        have : w2.length ≠ 0 := by simpa using hG2.1.ne
        simp only [text, List.length_append]
        omega
      · rw [h2, h3]
        cases l with
        | nil => simpa [text] using h0
        | cons b l => exact match1_plain ['='] b.1 _ hG2.2.2.2.1 (by decide)
      · rw [h2]; exact ih

/-- **C78 fails with an unmatched sign**: a line with nodes, not in parentheses, and a closing parenthesis, brace or semicolon before a
blank and the type is never done: reading a node there takes nothing, and the type is never reached. -/
theorem bare_hangs (ci : Bool) (max min : ℕ) (label type nm rest : List Char) (g gt : Gap) (nodes : List (List Char × Gap)) (c : Char)
    (hc : c = ')' ∨ c = '}' ∨ c = ';') (hne : nodes ≠ [])
    (hG : Good (c :: ' ' :: text [(type, gt), (nm, ⟨[], false, []⟩)] ('=' :: rest)) ((label, g) :: nodes))
    (hGt : Good ('=' :: rest) [(type, gt), (nm, ⟨[], false, []⟩)]) (hA : ∀ x ∈ (label, g) :: nodes, ∀ c ∈ x.1.tail, isArg c = true)
    (ht : ∀ c ∈ type.tail, isArg c = true) (hn : ∀ c ∈ nm.tail, isArg c = true) (ho : Ordinary ci label) (n : ℕ) :
    parseInst ci max min n (text ((label, g) :: nodes) (c :: ' ' :: text [(type, gt), (nm, ⟨[], false, []⟩)] ('=' :: rest))) = none := by
  set T := text [(type, gt), (nm, (⟨[], false, []⟩ : Gap))] ('=' :: rest) with hT
  have hg : isGraph c = true := by rcases hc with rfl | rfl | rfl <;> decide
  have hcc : c ≠ ',' := by rcases hc with rfl | rfl | rfl <;> decide
  have hce : c ≠ '=' := by rcases hc with rfl | rfl | rfl <;> decide
  have hz : Next (c :: ' ' :: T) := .inr ⟨c, _, rfl, hg, hcc⟩
  have hNT : Next T := text_next _ _ hGt (eq_next rest)
  have hskz : skiparg (c :: ' ' :: T) = T := by
    have := skiparg_word c [] (' ' :: T) hg hcc (by simp) (by intro d hd; simp at hd; subst hd; decide)
    rw [List.nil_append] at this
    rw [this, skipcom_skipbl _ (by rw [skipbl_blank, hNT.skipbl]; exact hNT), skipbl_blank, hNT.skipbl]
  have hLT : Lead 0 T T := lead_words rest (type, gt) (nm, ⟨[], false, []⟩) [] hGt (by
    intro x hx
    simp only [List.nil_append, List.mem_cons, List.not_mem_nil, or_false] at hx
    rcases hx with rfl | rfl
    · exact ht
    · exact hn)
  have hst : skiparg T = text [(nm, (⟨[], false, []⟩ : Gap))] ('=' :: rest) := skiparg_text type gt _ _ ht hGt (eq_next rest)
  have hLz : Lead 1 (c :: ' ' :: T) T := by
    refine Lead.on 0 _ _ ?_ ?_ ?_
    · rw [hskz, hst, hT]
      have : type.length ≠ 0 := by simpa using hGt.1.ne
      simp only [text, List.length_append]
      omega
    · rw [hskz, hst]
      exact match1_plain ['='] nm _ hGt.2.2.2.1 (by decide)
    · rw [hskz]; exact hLT
  have hmz : match1 ['='] (c :: ' ' :: T) = false := by simp [match1, hce]
  have hmt : match1 ['='] T = false := match1_plain ['='] type _ hGt.1 (by decide)
  have hL := lead_before (c :: ' ' :: T) T 1 hz hLz hmz (by rw [hskz]; exact hmt) (by rw [hskz]; simp only [List.length_cons]; omega) nodes hG.2.2.2
    (fun x hx => hA x (by simp [hx]))
  have hs := skiparg_text label g nodes _ (hA (label, g) (by simp)) hG hz
  have hl := word_text label g _ _ hG hz
  have hbl : skipbl (text ((label, g) :: nodes) (c :: ' ' :: T)) = label ++ (g.text ++ text nodes (c :: ' ' :: T)) := (hG.1.next _).skipbl
  obtain ⟨⟨w, gw⟩, nodes', rfl⟩ := List.exists_cons_of_ne_nil hne
  have hm : match1 ['('] (text ((w, gw) :: nodes') (c :: ' ' :: T)) = false := match1_plain ['('] w _ hG.2.2.2.1 (by decide)
  have hsk : skip1b ['('] (text ((w, gw) :: nodes') (c :: ' ' :: T)) = (false, text ((w, gw) :: nodes') (c :: ' ' :: T)) :=
    skip1b_plain ['('] w _ hG.2.2.2.1 (by decide)
  have hlen := text_length _ _ hG
  simp only [List.length_cons] at hlen
  have hsc : ∃ y, scan ci ['='] ((text ((label, g) :: (w, gw) :: nodes') (c :: ' ' :: T)).length + 1) (text ((label, g) :: (w, gw) :: nodes') (c :: ' ' :: T)) = some y := by
    obtain ⟨u, hu, hu'⟩ := text_noEq _ _ hG
    obtain ⟨u2, hv, hv'⟩ := text_noEq _ _ hGt
    have e : text ((label, g) :: (w, gw) :: nodes') (c :: ' ' :: T) = (u ++ c :: ' ' :: u2) ++ '=' :: rest := by
      rw [hu, hT, hv]; simp
    rw [e]
    refine ⟨_, scan_finds ci '=' sign_eq rest _ _ ?_ (by simp only [List.length_append, List.length_cons]; omega)⟩
    simp only [List.mem_append, List.mem_cons, not_or]
    exact ⟨hu', Ne.symm hce, by decide, hv'⟩
  obtain ⟨y, hy⟩ := hsc
  have hft : (findType ci (text ((label, g) :: (w, gw) :: nodes') (c :: ' ' :: T))).2 = T := by
    unfold findType
    rw [hbl, no_comment ci _ _ hG.1 hG.2.2.1 ho, no_control ci _ _ hG.1 hG.2.2.1 ho]
    simp only [Bool.false_eq_true, if_false, hs, hm, hy]
    exact backUp_lead hL _ (by simp only [List.length_cons]; omega)
  unfold parseInst ports
  rw [hl]
  simp only [hsk, Bool.false_eq_true, if_false, hft]
  rw [bare_until max T.length c (' ' :: T) hc (by simp only [List.length_cons]; omega) _ n [] hG.2.2.2]
  rfl

/-- `r1 a b) res r=1` -/
example : Good (')' :: ' ' :: text [(['r', 'e', 's'], ⟨[' '], false, []⟩), (['r'], ⟨[], false, []⟩)] ['=', '1'])
      ((['r', '1'], ⟨[' '], false, []⟩) :: [(['a'], ⟨[' '], false, []⟩), (['b'], ⟨[], false, []⟩)]) ∧
    Good ['=', '1'] [(['r', 'e', 's'], ⟨[' '], false, []⟩), (['r'], ⟨[], false, []⟩)] :=
  ⟨⟨plain_of _ (by decide), ⟨by decide, by decide⟩, by decide, plain_of _ (by decide), ⟨by decide, by decide⟩, by decide, plain_of _ (by decide),
    ⟨by decide, by decide⟩, by decide, trivial⟩, plain_of _ (by decide), ⟨by decide, by decide⟩, by decide, plain_of _ (by decide), ⟨by decide, by decide⟩, by decide, trivial⟩

/-! ## Subcircuits -/

/-- Specification: the ports a header can have: none is 0 and none comes twice -/
def kept (l : List (List Char)) : List (List Char) := l.foldl (fun a v => if v = ['0'] ∨ v ∈ a then a else a ++ [v]) []

theorem kept_snoc (l : List (List Char)) (v : List Char) : kept (l ++ [v]) = if v = ['0'] ∨ v ∈ kept l then kept l else kept l ++ [v] := by
  unfold kept
  rw [List.foldl_append, List.foldl_cons, List.foldl_nil]

theorem kept_length (l : List (List Char)) : (kept l).length ≤ l.length := by
  induction l using List.reverseRecOn with
  | nil => simp [kept]
  | append_singleton l v ih => rw [kept_snoc]; split <;> simp <;> omega

theorem fresh_state (max : ℕ) (l : List (List Char)) : l.length ≤ max →
    (l.foldl (newPort max) ⟨[], 0, []⟩).names = kept l ∧ (l.foldl (newPort max) ⟨[], 0, []⟩).index = (kept l).length ∧
    ∃ x, (l.foldl (newPort max) ⟨[], 0, []⟩).nodes = kept l ++ x ∧ x.length ≤ 1 := by
  induction l using List.reverseRecOn with
  | nil => intro _; exact ⟨rfl, rfl, [], rfl, by simp⟩
  | append_singleton l v ih =>
    intro hl
    simp only [List.length_append, List.length_cons, List.length_nil] at hl
    obtain ⟨h1, h2, x, h3, h4⟩ := ih (by omega)
    have hk := kept_length l
    rw [List.foldl_append, List.foldl_cons, List.foldl_nil]
    generalize l.foldl (newPort max) ⟨[], 0, []⟩ = f at h1 h2 h3
    obtain ⟨nodes, index, names⟩ := f
    simp only at h1 h2 h3
    subst h1 h2 h3
    have hd : List.drop ((kept l).length + 1) (kept l ++ x) = [] := by
      apply List.drop_eq_nil_of_le
      simp only [List.length_append]; omega
    unfold newPort
    simp only [hd, List.take_left', if_pos (show (kept l).length < max by omega)]
    rw [kept_snoc]
    by_cases h0 : v = ['0']
    · simp [h0]
    · by_cases hm : v ∈ kept l
      · simp [h0, hm]
      · simp [h0, hm]

/-- **C78, ports of a subcircuit**: the nodes set are the ports before the last that are neither 0 nor there already, and the last. -/
theorem fresh_nodes (max : ℕ) (l : List (List Char)) (v : List Char) (h : l.length < max) :
    ((l ++ [v]).foldl (newPort max) ⟨[], 0, []⟩).nodes = kept l ++ [v] := by
  obtain ⟨h1, h2, x, h3, h4⟩ := fresh_state max l (by omega)
  have hk := kept_length l
  rw [List.foldl_append, List.foldl_cons, List.foldl_nil]
  generalize l.foldl (newPort max) ⟨[], 0, []⟩ = f at h1 h2 h3
  obtain ⟨nodes, index, names⟩ := f
  simp only at h1 h2 h3
  subst h1 h2 h3
  have hd : List.drop ((kept l).length + 1) (kept l ++ x) = [] := by
    apply List.drop_eq_nil_of_le
    simp only [List.length_append]; omega
  unfold newPort
  simp only [hd, List.take_left', if_pos (show (kept l).length < max by omega)]
  by_cases h0 : v = ['0']
  · simp [h0]
  · by_cases hm : v ∈ kept l
    · simp [h0, hm]
    · simp [h0, hm]

theorem kept_all (l : List (List Char)) (h0 : ['0'] ∉ l) (hn : l.Nodup) : kept l = l := by
  induction l using List.reverseRecOn with
  | nil => rfl
  | append_singleton l v ih =>
    have h1 : kept l = l := ih (fun h => h0 (by simp [h])) (hn.sublist (List.sublist_append_left _ _))
    have h2 : v ∉ l := fun hm => (List.disjoint_of_nodup_append hn hm (by simp))
    have h3 : v ≠ ['0'] := fun e => h0 (by simp [e])
    rw [kept_snoc, h1, if_neg (by tauto)]

theorem new_words (max : ℕ) (z : List Char) : ∀ (l : List (List Char × Gap)) (n : ℕ) (f : Fresh), Good (')' :: z) l → (∀ a ∈ l, NodeName a.1) →
    l.length < n → portsNew max n f (text l (')' :: z)) = ((l.map Prod.fst).foldl (newPort max) f, ')' :: z)
  | _, 0, _, _, _, h => absurd h (by omega)
  | [], n + 1, f, _, _, _ => by
    have : alnumAt ')' = false := by decide
    simp [portsNew, text, this]
  | (w, g) :: l, n + 1, f, hG, hn, hl => by
    obtain ⟨hw, hh⟩ := hn (w, g) (by simp)
    have hz : Next (')' :: z) := .inr ⟨')', z, rfl, by decide, by decide⟩
    have h1 := word_text w g l (')' :: z) hG hz
    obtain ⟨c, w', rfl⟩ := List.exists_cons_of_ne_nil hw.ne
    have e : text ((c :: w', g) :: l) (')' :: z) = c :: (w' ++ (g.text ++ text l (')' :: z))) := rfl
    rw [e] at h1 ⊢
    simp only [portsNew]
    rw [if_pos (hh c rfl), h1]
    simp only [List.length_cons] at hl
    rw [new_words max z l n _ hG.2.2.2 (fun a ha => hn a (by simp [ha])) (by omega)]
    rfl

def subcktSegs : List Seg := [.lit 's', .lit 'u', .lit 'b', .lit 'c', .lit 'k', .lit 't', .delim]

theorem subckt_word (ci : Bool) (s : List Char) (hs : Next s) :
    umatch ci ['s', 'u', 'b', 'c', 'k', 't', ' '] (['s', 'u', 'b', 'c', 'k', 't', ' '] ++ s) = .ok s := by
  have e : ['s', 'u', 'b', 'c', 'k', 't', ' '] = segText subcktSegs := rfl
  have hb : skipbl (' ' :: s) = s := by rw [skipbl_blank, hs.skipbl]
  conv_lhs => rw [e]
  rw [umatch_single ci subcktSegs (by decide), show skipbl (segText subcktSegs ++ s) = segText subcktSegs ++ s from skipbl_cons _ (by decide)]
  simp [subcktSegs, segText, Seg.text, segMatch, eqc, isTerm, show isTermChar ' ' = true from rfl, hb, hs.skipcom]

theorem model_word (ci : Bool) (s : List Char) (hs : Next s) :
    umatch ci ['m', 'o', 'd', 'e', 'l', ' '] (['m', 'o', 'd', 'e', 'l', ' '] ++ s) = .ok s := by
  have e : ['m', 'o', 'd', 'e', 'l', ' '] = segText [.lit 'm', .lit 'o', .lit 'd', .lit 'e', .lit 'l', .delim] := rfl
  have hb : skipbl (' ' :: s) = s := by rw [skipbl_blank, hs.skipbl]
  conv_lhs => rw [e]
  rw [umatch_single ci _ (by decide), show skipbl (segText [.lit 'm', .lit 'o', .lit 'd', .lit 'e', .lit 'l', .delim] ++ s) =
    segText [.lit 'm', .lit 'o', .lit 'd', .lit 'e', .lit 'l', .delim] ++ s from skipbl_cons _ (by decide)]
  simp [segText, Seg.text, segMatch, eqc, isTerm, show isTermChar ' ' = true from rfl, hb, hs.skipcom]

theorem head_nodes (ci : Bool) (n : ℕ) (label : List Char) (l : List (List Char)) (hl : Plain label) (hp : ∀ w ∈ l, NodeName w) :
    parseHead ci n (listHead label l) = some (some label, (l.foldl (newPort maxPorts) ⟨[], 0, []⟩).nodes, []) := by
  have hnw : ∀ w ∈ l, Plain w := fun w hw => (hp w hw).1
  have e0 : listHead label l = ['s', 'u', 'b', 'c', 'k', 't', ' '] ++ (label ++ (' ' :: '(' :: (blanks l ++ [')']))) := by simp [listHead, portsText]
  have hbl : skipbl (listHead label l) = ['s', 'u', 'b', 'c', 'k', 't', ' '] ++ (label ++ (' ' :: '(' :: (blanks l ++ [')']))) := by
    rw [e0]; exact skipbl_cons _ (by decide)
  have hsk : skipcom (' ' :: '(' :: (blanks l ++ [')'])) = '(' :: (blanks l ++ [')']) := by
    rw [skipcom_skipbl]
    · rw [skipbl_blank, skipbl_cons _ (by decide)]
    · rw [skipbl_blank, skipbl_cons _ (by decide)]; exact .inr ⟨'(', _, rfl, by decide, by decide⟩
  have hw : word (label ++ (' ' :: '(' :: (blanks l ++ [')']))) = (label, '(' :: (blanks l ++ [')'])) := by
    rw [word_plain _ _ hl (by simp [isTerm]; decide), hsk]
  have hG : Good [')'] (sep l) := sep_good _ _ hnw (by decide)
  have hzc : Next [')'] := .inr ⟨')', [], rfl, by decide, by decide⟩
  have hin : skip1b ['('] ('(' :: (blanks l ++ [')'])) = (true, blanks l ++ [')']) := by
    rw [skip1b_hit ['('] '(' _ (by decide) (by decide), blanks_text, (text_next _ _ hG hzc).skipbl]
  have hlen := text_length _ _ hG
  have hpl : portsNew maxPorts ((blanks l ++ [')']).length + 1) ⟨[], 0, []⟩ (blanks l ++ [')']) =
      (l.foldl (newPort maxPorts) ⟨[], 0, []⟩, [')']) := by
    rw [blanks_text, new_words maxPorts [] (sep l) _ _ hG (fun a ha => hp a.1 (by
      rw [← sep_names l]; exact List.mem_map_of_mem ha)) (by omega), sep_names]
  have hout : skip1b [')'] [')'] = (true, []) := by decide
  unfold parseHead
  rw [hbl, subckt_word ci _ (hl.next _)]
  simp only [hw, hin, if_true, hpl, hout, named, if_neg hl.ne]

/-- **C78, subcircuits**: the header that is listed gives the name and the ports, up to a hundred. -/
theorem head_read (ci : Bool) (n : ℕ) (label : List Char) (l : List (List Char)) (hl : Plain label) (hp : ∀ w ∈ l, NodeName w) (h0 : ['0'] ∉ l)
    (hn : l.Nodup) (hm : l.length ≤ 100) : parseHead ci n (listHead label l) = some (some label, l, []) := by
  rw [head_nodes ci n label l hl hp]
  rcases List.eq_nil_or_concat l with rfl | ⟨m, v, rfl⟩
  · rfl
  · rw [List.concat_eq_append] at *
    simp only [List.length_append, List.length_cons, List.length_nil] at hm
    rw [fresh_nodes maxPorts m v (by simp only [maxPorts]; omega), kept_all m (fun h => h0 (by simp [h])) (hn.sublist (List.sublist_append_left _ _))]

example : NodeName ['i', 'n'] ∧ NodeName ['2'] ∧ [['i', 'n'], ['2']].Nodup ∧ ['0'] ∉ [['i', 'n'], ['2']] :=
  ⟨nodeName _ (plain_of _ (by decide)) _ _ rfl (by decide), nodeName _ (plain_of _ (by decide)) _ _ rfl (by decide), by decide, by decide⟩

/-- **C78 fails for a last port that is refused**: if it is 0 or there already, "skipping" it says, but it stays a port. -/
theorem refused_stays (ci : Bool) (n : ℕ) (label : List Char) (l : List (List Char)) (v : List Char) (hl : Plain label) (hp : ∀ w ∈ l ++ [v], NodeName w)
    (h : v = ['0'] ∨ v ∈ kept l) (hm : l.length < 100) : parseHead ci n (listHead label (l ++ [v])) = some (some label, kept (l ++ [v]) ++ [v], []) := by
  rw [head_nodes ci n label _ hl hp, fresh_nodes maxPorts l v hm, kept_snoc, if_pos h]

example : (['a'] : List Char) ∈ kept [['a'], ['b']] := by decide

/-- **C78 fails for ports without parentheses**: a header with its ports not in parentheses has none; nothing tells. -/
theorem bare_ports_lost (ci : Bool) (n : ℕ) (label : List Char) (g : Gap) (l : List (List Char × Gap)) (hG : Good [] ((label, g) :: l)) :
    parseHead ci (n + 1) (['s', 'u', 'b', 'c', 'k', 't', ' '] ++ text ((label, g) :: l) []) = some (some label, [], text l []) := by
  have hz : Next [] := .inl rfl
  have hl := word_text label g _ _ hG hz
  have hbl : skipbl (['s', 'u', 'b', 'c', 'k', 't', ' '] ++ text ((label, g) :: l) []) = ['s', 'u', 'b', 'c', 'k', 't', ' '] ++ text ((label, g) :: l) [] :=
    skipbl_cons _ (by decide)
  have hN := text_next _ _ hG hz
  have hsk : skip1b ['('] (text l []) = (false, text l []) := by
    cases l with
    | nil => rfl
    | cons a l => exact skip1b_plain ['('] a.1 _ hG.2.2.2.1 (by decide)
  have hft : findType ci (['s', 'u', 'b', 'c', 'k', 't', ' '] ++ text ((label, g) :: l) []) =
      (.control, ['s', 'u', 'b', 'c', 'k', 't', ' '] ++ text ((label, g) :: l) []) := by
    unfold findType
    rw [hbl]
    have h1 : hits ci commentPat (['s', 'u', 'b', 'c', 'k', 't', ' '] ++ text ((label, g) :: l) []) = false := by
      have hO : Ordinary ci ['s', 'u', 'b', 'c', 'k', 't', 'x'] :=
        ⟨by rintro ⟨t, ht⟩; simp at ht, by rintro ⟨t, ht⟩; simp at ht, not_same_head _ _ _ _ _ (by cases ci <;> decide), by
          intro h; have := h.length_eq; simp at this, not_same_head _ _ _ _ _ (by cases ci <;> decide), by intro h; have := h.length_eq; simp at this⟩
      have e : commentPat = altText [[.lit '*'], [.lit '/', .lit '/']] := rfl
      rw [e, hits_alts ci _ (by simp) (by decide) _ hbl]
      have e1 : eqc ci 's' '*' = false := by cases ci <;> decide
      have e2 : eqc ci 's' '/' = false := by cases ci <;> decide
      have a1 : hits ci (segText [.lit '*']) (['s', 'u', 'b', 'c', 'k', 't', ' '] ++ text ((label, g) :: l) []) = false := by
        unfold hits
        rw [umatch_single ci _ (by decide), hbl]
        simp [segMatch, e1]
      have a2 : hits ci (segText [.lit '/', .lit '/']) (['s', 'u', 'b', 'c', 'k', 't', ' '] ++ text ((label, g) :: l) []) = false := by
        unfold hits
        rw [umatch_single ci _ (by decide), hbl]
        simp [segMatch, e2]
      rw [List.any_cons, List.any_cons, a1, a2]
      rfl
    have h2 : hits ci controlPat (['s', 'u', 'b', 'c', 'k', 't', ' '] ++ text ((label, g) :: l) []) = true := by
      have e : controlPat = altText [(['m', 'o', 'd', 'e', 'l'].map .lit ++ [.delim]), (['s', 'i', 'm', 'u', 'l', 'a', 't', 'o', 'r'].map .lit ++ [.delim]),
        (['p', 'a', 'r', 'a', 'm', 'e', 't', 'e', 'r', 's'].map .lit ++ [.delim]), subcktSegs] := rfl
      rw [e, hits_alts ci _ (by simp) (by decide) _ hbl, List.any_eq_true]
      refine ⟨subcktSegs, by simp, ?_⟩
      have : segText subcktSegs = ['s', 'u', 'b', 'c', 'k', 't', ' '] := rfl
      unfold hits
      rw [this, subckt_word ci _ hN]
    rw [h1, h2]
    rfl
  have hlt : ¬ (['s', 'u', 'b', 'c', 'k', 't', ' '] ++ text ((label, g) :: l) []).length < (text l []).length := by
    simp only [text, List.length_append]
    omega
  unfold parseHead
  rw [hbl, subckt_word ci _ hN]
  simp only [hl, hsk, Bool.false_eq_true, if_false, hft, portsNewBare, hlt, Option.map_some, named, if_neg hG.1.ne]

/-- `subckt foo a b` -/
example : Good [] ((['f', 'o', 'o'], ⟨[' '], false, []⟩) :: [(['a'], ⟨[' '], false, []⟩), (['b'], ⟨[], false, []⟩)]) :=
  ⟨plain_of _ (by decide), ⟨by decide, by decide⟩, by decide, plain_of _ (by decide), ⟨by decide, by decide⟩, by decide, plain_of _ (by decide),
    ⟨by decide, by decide⟩, by decide, trivial⟩

/-! ## Models -/

/-- a model with parameters and any text behind them -/
theorem model_args (ci : Bool) (label type : List Char) (a : List (List Char × List Char)) (hl : Plain label) (ht : Plain type)
    (ha : ∀ x ∈ a, ArgName x.1 ∧ ArgValue x.2) (z : List Char) (hB : Behind z) (hz : Next (skipbl z)) :
    parseModel ci (['m', 'o', 'd', 'e', 'l', ' '] ++ (label ++ (' ' :: (type ++ (' ' :: ' ' :: (a.flatMap argText ++ z)))))) =
      (some label, type, a ++ (all z).1, (all z).2) := by
  have hbl : skipbl (['m', 'o', 'd', 'e', 'l', ' '] ++ (label ++ (' ' :: (type ++ (' ' :: ' ' :: (a.flatMap argText ++ z)))))) =
    ['m', 'o', 'd', 'e', 'l', ' '] ++ (label ++ (' ' :: (type ++ (' ' :: ' ' :: (a.flatMap argText ++ z))))) := skipbl_cons _ (by decide)
  have hw : word (label ++ (' ' :: (type ++ (' ' :: ' ' :: (a.flatMap argText ++ z))))) = (label, type ++ (' ' :: ' ' :: (a.flatMap argText ++ z))) := by
    rw [word_plain _ _ hl (by simp [isTerm]; decide), skipcom_skipbl _ (by rw [skipbl_blank, (ht.next _).skipbl]; exact ht.next _), skipbl_blank, (ht.next _).skipbl]
  obtain ⟨t1, t2⟩ := type_args type a [' ', ' '] (by simp) ht ha (by simp) z hB hz
  simp only [List.cons_append, List.nil_append] at t1 t2
  unfold parseModel
  rw [hbl, model_word ci _ (hl.next _)]
  simp only [hw, t1, named, if_neg hl.ne]
  rw [t2 _ _ (by omega) (by simp only [List.length_append, List.length_cons]; omega)]

/-- **C78, models**: a model that is listed is read again exactly. -/
theorem model_read (ci : Bool) (label type : List Char) (a : List (List Char × List Char)) (hl : Plain label) (ht : Plain type)
    (ha : ∀ x ∈ a, ArgName x.1 ∧ ArgValue x.2) : parseModel ci (listModel label type a) = (some label, type, a, []) := by
  have := model_args ci label type a hl ht ha [] (by intro c hc; cases hc) (.inl rfl)
  simpa [listModel, all_nil] using this

example : Plain ['n', '1'] ∧ Plain ['d', 'i', 'o', 'd', 'e'] ∧ ArgName ['i', 's'] ∧ ArgValue ['1', 'e', '-', '1', '4'] :=
  ⟨plain_of _ (by decide), plain_of _ (by decide), ⟨by decide, by decide, by decide, by decide⟩, ⟨by decide, by decide, by decide⟩⟩

/-! ## What is lost -/

/-- **C78 fails for a value that begins with a parenthesis** and goes on behind it, like `(1+x)*2`: the value is what is in the
parentheses, and the rest of it is taken for a parameter with the next one as its value. -/
theorem paren_cut (ci : Bool) (label type : List Char) (pre post : List (List Char × List Char)) (nm v q nm2 v2 : List Char) (hl : Plain label)
    (ht : Plain type) (hpre : ∀ x ∈ pre, ArgName x.1 ∧ ArgValue x.2) (hpost : ∀ x ∈ post, ArgName x.1 ∧ ArgValue x.2) (hn : ArgName nm)
    (hv : Nest '(' ')' v) (hq : ArgName q) (hn2 : ArgName nm2) (hh : nm2.head? ≠ some '(') (hv2 : ArgValue v2) :
    parseModel ci (listModel label type (pre ++ (nm, '(' :: (v ++ ')' :: q)) :: (nm2, v2) :: post)) =
      (some label, type, pre ++ (nm, v) :: (q, nm2 ++ '=' :: v2) :: post, []) := by
  set Z : List Char := ' ' :: (nm ++ '=' :: ('(' :: (v ++ ')' :: q) ++ (' ' :: (nm2 ++ '=' :: v2) ++ post.flatMap argText))) with hZ
  have hzn : Next (skipbl Z) := by rw [hZ, skipbl_blank, (hn.next _).skipbl]; exact hn.next _
  have h := model_args ci label type pre hl ht hpre Z (by intro c hc; rw [hZ] at hc; simp at hc; subst hc; decide) hzn
  have hvg : ∀ c ∈ v2, isGraph c = true := hv2.graph
  have hV : ArgValue (nm2 ++ '=' :: v2) := by
    refine ⟨by simp [hn2.ne], ?_, ?_⟩
    · intro c hc
      simp only [List.mem_append, List.mem_cons] at hc
      rcases hc with hc | rfl | hc
      · exact hn2.graph c hc
      · decide
      · exact hvg c hc
    · obtain ⟨c, w', e⟩ := List.exists_cons_of_ne_nil hn2.ne
      rw [e] at hh ⊢
      simpa using hh
  have hP := args_next post fun a ha => (hpost a ha).1
  have hall : all Z = ((nm, v) :: (q, nm2 ++ '=' :: v2) :: post, []) := by
    have h0 : skipbl Z = nm ++ '=' :: ('(' :: (v ++ ')' :: q) ++ (' ' :: (nm2 ++ '=' :: v2) ++ post.flatMap argText)) := by
      rw [hZ, skipbl_blank, (hn.next _).skipbl]
    have hne : skipbl (skipbl Z) ≠ [] := by rw [skipbl_idem, h0]; simp
    rw [← all_skipbl, all_step _ hne, skipbl_idem]
    rw [show ctos ['='] [] (skipbl Z) = (nm, skipcom ('=' :: ('(' :: (v ++ ')' :: q) ++ (' ' :: (nm2 ++ '=' :: v2) ++ post.flatMap argText)))) from by
      have := name_read nm ('=' :: ('(' :: (v ++ ')' :: q) ++ (' ' :: (nm2 ++ '=' :: v2) ++ post.flatMap argText))) hn (by intro c hc; simp at hc; exact .inl hc.symm)
      rw [(hn.next _).skipbl] at this
      rw [h0, this]]
    simp only
    rw [eq_read ('(' :: (v ++ ')' :: q)) _ (by intro c hc; simp at hc; subst hc; decide) (by simp)]
    simp only
    have hval : ctos [] [('(', ')')] ('(' :: (v ++ ')' :: q) ++ (' ' :: (nm2 ++ '=' :: v2) ++ post.flatMap argText)) =
        (v, q ++ (' ' :: ((nm2 ++ '=' :: v2) ++ post.flatMap argText))) := by
      unfold ctos
      have e : '(' :: (v ++ ')' :: q) ++ (' ' :: (nm2 ++ '=' :: v2) ++ post.flatMap argText) =
        '(' :: (v ++ ')' :: (q ++ (' ' :: ((nm2 ++ '=' :: v2) ++ post.flatMap argText)))) := by simp
      rw [e, skipbl_cons _ (by decide)]
      simp only [List.lookup, beq_self_eq_true]
      rw [quoted_pairs (by decide) hv, (hq.next _).skipcom]
    rw [hval]
    simp only
    have hne2 : skipbl (q ++ (' ' :: ((nm2 ++ '=' :: v2) ++ post.flatMap argText))) ≠ [] := by
      rw [(hq.next _).skipbl]; simp
    rw [all_step _ hne2, name_read q _ hq (by intro c hc; simp at hc; subst hc; exact .inr (by decide))]
    simp only
    have hn3 : Next ((nm2 ++ '=' :: v2) ++ post.flatMap argText) := by
      rw [List.append_assoc]; exact hn2.next _
    have hs3 : skipcom (' ' :: ((nm2 ++ '=' :: v2) ++ post.flatMap argText)) = (nm2 ++ '=' :: v2) ++ post.flatMap argText := by
      rw [skipcom_skipbl _ (by rw [skipbl_blank, hn3.skipbl]; exact hn3), skipbl_blank, hn3.skipbl]
    have hmiss : skip1b ['='] ((nm2 ++ '=' :: v2) ++ post.flatMap argText) = (false, (nm2 ++ '=' :: v2) ++ post.flatMap argText) := by
      obtain ⟨c, w', e⟩ := List.exists_cons_of_ne_nil hn2.ne
      have hc : c ≠ '=' := by rintro rfl; exact hn2.noEq (by rw [e]; simp)
      rw [e]
      simp only [List.cons_append]
      exact skip1b_miss ['='] c _ (hn2.graph c (by rw [e]; simp)) (by simp [hc])
    rw [hs3, hmiss]
    simp only
    rw [value_read _ _ hV (behind_args post)]
    simp only
    rw [all_skipcom _ hP, all_list post hpost]
  rw [hall] at h
  rw [← h]
  congr 1
  simp [listModel, hZ, argText]

/-- `r=(1+x)*2 c=3` -/
example : Nest '(' ')' ['1', '+', 'x'] ∧ ArgName ['*', '2'] ∧ ArgName ['c'] ∧ ArgValue ['3'] :=
  ⟨.of_plain _ _ _ (by decide), ⟨by decide, by decide, by decide, by decide⟩, ⟨by decide, by decide, by decide, by decide⟩, ⟨by decide, by decide, by decide⟩⟩

/-- **C78 fails for a value with blanks**, like `a * b`: the value is its first word, and the next two words are taken for a parameter
and its value. -/
theorem blank_cut (ci : Bool) (label type : List Char) (pre post : List (List Char × List Char)) (nm a op b : List Char) (hl : Plain label)
    (ht : Plain type) (hpre : ∀ x ∈ pre, ArgName x.1 ∧ ArgValue x.2) (hpost : ∀ x ∈ post, ArgName x.1 ∧ ArgValue x.2) (hn : ArgName nm)
    (ha : ArgValue a) (ho : ArgName op) (hb : ArgValue b) (hbe : b.head? ≠ some '=' ∧ b.head? ≠ some ',') :
    parseModel ci (listModel label type (pre ++ (nm, a ++ ' ' :: (op ++ ' ' :: b)) :: post)) =
      (some label, type, pre ++ (nm, a) :: (op, b) :: post, []) := by
  have hP := args_next post fun a ha => (hpost a ha).1
  set Y : List Char := ' ' :: (op ++ ' ' :: (b ++ post.flatMap argText)) with hY
  set Z : List Char := ' ' :: (nm ++ '=' :: (a ++ Y)) with hZ
  have hyn : Next (skipbl Y) := by rw [hY, skipbl_blank, (ho.next _).skipbl]; exact ho.next _
  have hzn : Next (skipbl Z) := by rw [hZ, skipbl_blank, (hn.next _).skipbl]; exact hn.next _
  have hyb : Behind Y := by intro c hc; rw [hY] at hc; simp at hc; subst hc; decide
  have h := model_args ci label type pre hl ht hpre Z (by intro c hc; rw [hZ] at hc; simp at hc; subst hc; decide) hzn
  have hbn : Next (b ++ post.flatMap argText) := by
    obtain ⟨c, b', e⟩ := List.exists_cons_of_ne_nil hb.ne
    rw [e] at hbe ⊢
    refine .inr ⟨c, b' ++ post.flatMap argText, rfl, hb.graph c (by rw [e]; simp), by simpa using hbe.2⟩
  have hally : all Y = ((op, b) :: post, []) := by
    have h0 : skipbl Y = op ++ ' ' :: (b ++ post.flatMap argText) := by rw [hY, skipbl_blank, (ho.next _).skipbl]
    have hne : skipbl Y ≠ [] := by rw [h0]; simp
    rw [all_step _ hne]
    have h1 : ctos ['='] [] (skipbl Y) = (op, b ++ post.flatMap argText) := by
      have := name_read op (' ' :: (b ++ post.flatMap argText)) ho (by intro c hc; simp at hc; subst hc; exact .inr (by decide))
      rw [(ho.next _).skipbl] at this
      rw [h0, this, skipcom_skipbl _ (by rw [skipbl_blank, hbn.skipbl]; exact hbn), skipbl_blank, hbn.skipbl]
    have hmiss : skip1b ['='] (b ++ post.flatMap argText) = (false, b ++ post.flatMap argText) := by
      obtain ⟨c, b', e⟩ := List.exists_cons_of_ne_nil hb.ne
      rw [e] at hbe ⊢
      exact skip1b_miss ['='] c _ (hb.graph c (by rw [e]; simp)) (by simpa using hbe.1)
    rw [h1]
    simp only
    rw [hmiss]
    simp only
    rw [value_read _ _ hb (behind_args post)]
    simp only
    rw [all_skipcom _ hP, all_list post hpost]
  rw [hZ, all_arg nm a Y hn ha hyb hyn, hally] at h
  rw [← h]
  congr 1
  simp [listModel, hY, argText]

example : ArgValue ['a'] ∧ ArgName ['*'] ∧ ArgValue ['b'] :=
  ⟨⟨by decide, by decide, by decide⟩, ⟨by decide, by decide, by decide, by decide⟩, ⟨by decide, by decide, by decide⟩⟩

/-- **C78 fails for a node that begins with another character**: an underscore, say, ends the nodes, and is taken for the type. -/
theorem underscore_type (ci : Bool) (max min n : ℕ) (x : Inst) (h : Listable x) (hp : x.ports.length ≤ max) (w : List Char) (hw : Plain w)
    (hh : ∀ c, w.head? = some c → alnumAt c = false) (more : List (List Char)) :
    ∃ r, parseInst ci max min n (listInst { x with ports := x.ports ++ w :: more }) = some r ∧ r.type = w ∧
      r.ports = x.ports ++ List.replicate (min - x.ports.length) ['0'] := by
  have hnw : ∀ w ∈ x.ports, Plain w := fun w hw => (h.ports w hw).1
  obtain ⟨tl, htl, htt⟩ : ∃ tl, blanks (x.ports ++ w :: more) ++ ')' :: (' ' :: (x.type ++ (' ' :: x.args.flatMap argText))) =
      text (x.ports.map fun p => (p, (⟨[' '], false, []⟩ : Gap))) (w ++ tl) ∧ isTerm tl = true := by
    generalize ' ' :: (x.type ++ (' ' :: x.args.flatMap argText)) = A
    clear hp h hnw
    induction x.ports with
    | nil =>
      cases more with
      | nil => exact ⟨')' :: A, by simp [blanks, text], by simp [isTerm]; decide⟩
      | cons m more => exact ⟨' ' :: (blanks (m :: more) ++ ')' :: A), by simp [blanks, text], by simp [isTerm]; decide⟩
    | cons p ps ih =>
      obtain ⟨tl, e, ht⟩ := ih
      refine ⟨tl, ?_, ht⟩
      have : blanks (p :: ps ++ w :: more) = p ++ ' ' :: blanks (ps ++ w :: more) := by
        cases ps <;> simp [blanks]
      rw [this, List.append_assoc, List.cons_append, e]
      simp [text, Gap.text]
  have hG : Good (w ++ tl) (x.ports.map fun p => (p, (⟨[' '], false, []⟩ : Gap))) := by
    clear htl hp
    revert hnw
    induction x.ports with
    | nil => intro _; trivial
    | cons p ps ih =>
      intro hnw
      exact ⟨hnw p (by simp), ⟨by decide, by decide⟩, by simp [Gap.text, isTerm]; decide, ih fun w hw => hnw w (by simp [hw])⟩
  have hN := hw.next tl
  have hpl : ∀ (l : List (List Char)) (k : ℕ) (acc : List (List Char)), (∀ p ∈ l, NodeName p) →
      Good (w ++ tl) (l.map fun p => (p, (⟨[' '], false, []⟩ : Gap))) → l.length < k → acc.length + l.length ≤ max →
      portsIn max k acc (text (l.map fun p => (p, (⟨[' '], false, []⟩ : Gap))) (w ++ tl)) = (acc ++ l, w ++ tl) := by
    intro l
    induction l with
    | nil =>
      intro k acc _ _ hk _
      obtain ⟨k, rfl⟩ := Nat.exists_eq_succ_of_ne_zero (show k ≠ 0 by omega)
      obtain ⟨c, w', rfl⟩ := List.exists_cons_of_ne_nil hw.ne
      simp [portsIn, text, hh c rfl]
    | cons p l ih =>
      intro k acc hl hg hk ha
      obtain ⟨k, rfl⟩ := Nat.exists_eq_succ_of_ne_zero (show k ≠ 0 by omega)
      obtain ⟨hp1, hp2⟩ := hl p (by simp)
      have h1 := word_text p ⟨[' '], false, []⟩ _ (w ++ tl) hg hN
      simp only [List.length_cons] at ha hk
      obtain ⟨c, p', rfl⟩ := List.exists_cons_of_ne_nil hp1.ne
      simp only [List.map_cons] at h1 ⊢
      have e : text ((c :: p', (⟨[' '], false, []⟩ : Gap)) :: l.map fun p => (p, (⟨[' '], false, []⟩ : Gap))) (w ++ tl) =
        c :: (p' ++ ((⟨[' '], false, []⟩ : Gap).text ++ text (l.map fun p => (p, (⟨[' '], false, []⟩ : Gap))) (w ++ tl))) := rfl
      rw [e] at h1 ⊢
      simp only [portsIn]
      rw [if_pos (hp2 c rfl), h1]
      simp only
      rw [if_pos (by omega), ih k _ (fun q hq => hl q (by simp [hq])) hg.2.2.2 (by omega) (by simp; omega)]
      simp
  have e0 : listInst { x with ports := x.ports ++ w :: more } =
      x.label ++ (' ' :: '(' :: text (x.ports.map fun p => (p, (⟨[' '], false, []⟩ : Gap))) (w ++ tl)) := by
    rw [← htl]; simp [listInst, portsText]
  set B := text (x.ports.map fun p => (p, (⟨[' '], false, []⟩ : Gap))) (w ++ tl) with hB
  have hlen := text_length _ _ hG
  rw [← hB] at hlen
  have hBn : Next B := text_next _ _ hG hN
  have hl : word (listInst { x with ports := x.ports ++ w :: more }) = (x.label, '(' :: B) := by
    rw [e0, word_plain _ _ h.label (by simp [isTerm]; decide), skipcom_skipbl]
    · rw [skipbl_blank, skipbl_cons _ (by decide)]
    · rw [skipbl_blank, skipbl_cons _ (by decide)]; exact .inr ⟨'(', _, rfl, by decide, by decide⟩
  have hin : skip1b ['('] ('(' :: B) = (true, B) := by rw [skip1b_hit ['('] '(' _ (by decide) (by decide), hBn.skipbl]
  have hout : skip1b [')'] (w ++ tl) = (false, w ++ tl) := skip1b_plain [')'] w _ hw (by decide)
  have hp' := hpl x.ports (B.length + 1) [] h.ports hG (by simp only [List.length_map] at hlen; omega) (by simpa using hp)
  rw [← hB, List.nil_append] at hp'
  have key : ∃ a z, parseInst ci max min n (listInst { x with ports := x.ports ++ w :: more }) =
      some ⟨named x.label, x.ports ++ List.replicate (min - x.ports.length) ['0'], w, a, z⟩ := by
    unfold parseInst ports
    rw [hl]
    simp only [hin, if_true, hp', hout, Option.map_some, word_plain w tl hw htt]
    exact ⟨_, _, rfl⟩
  obtain ⟨a, z, e⟩ := key
  exact ⟨_, e, rfl, rfl⟩

example : Plain ['_', 'x'] ∧ ∀ c, (['_', 'x'] : List Char).head? = some c → alnumAt c = false :=
  ⟨plain_of _ (by decide), by intro c hc; simp at hc; subst hc; decide⟩

end Gnucap.Spectre
