import Verif.SpectreModel
import Verif.VlogProps
import Verif.OptRound

/-!
# Reading and listing in Spectre (C78): theorems
-/
namespace Gnucap.Spectre
open Gnucap.Scan Gnucap.Spice Gnucap.Opt Gnucap.Vlog

/-! ## Specification -/

/-- a name of a parameter: graphic characters without `=`, no comma in front -/
structure ArgName (w : List Char) : Prop where
  ne : w ≠ []
  graph : ∀ c ∈ w, isGraph c = true
  noEq : '=' ∉ w
  head : w.head? ≠ some ','

/-- a value of a parameter: graphic characters, no parenthesis in front -/
structure ArgValue (v : List Char) : Prop where
  ne : v ≠ []
  graph : ∀ c ∈ v, isGraph c = true
  head : v.head? ≠ some '('

/-- a node: a plain name that begins with a letter or digit -/
def NodeName (w : List Char) : Prop := Plain w ∧ ∀ c, w.head? = some c → alnumAt c = true

/-- a name that the scanner skips as a whole -/
def ArgLike (w : List Char) : Prop := Plain w ∧ ∀ c ∈ w.tail, isArg c = true

/-- a label that begins neither a comment nor a control statement -/
structure Ordinary (ci : Bool) (w : List Char) : Prop where
  noStar : ¬ ['*'] <+: w
  noSlash : ¬ ['/', '/'] <+: w
  noWord : ¬ Same ci w ['m', 'o', 'd', 'e', 'l'] ∧ ¬ Same ci w ['s', 'i', 'm', 'u', 'l', 'a', 't', 'o', 'r'] ∧
    ¬ Same ci w ['p', 'a', 'r', 'a', 'm', 'e', 't', 'e', 'r', 's'] ∧ ¬ Same ci w ['s', 'u', 'b', 'c', 'k', 't']

/-- an instance that can be listed and read -/
structure Listable (x : Inst) : Prop where
  label : Plain x.label
  ports : ∀ w ∈ x.ports, NodeName w
  type : Plain x.type
  args : ∀ a ∈ x.args, ArgName a.1 ∧ ArgValue a.2

/-! ## The scanner -/

theorem term_not_arg {c : Char} (h : isTermChar c = true) : isArg c = false := by
  have h1 : c.toNat = 32 ∨ (9 ≤ c.toNat ∧ c.toNat ≤ 13) ∨ c ∈ [',', '=', '(', ')', '{', '}', ';'] := by
    unfold isTermChar isSpace at h
    simp only [Bool.or_eq_true, beq_iff_eq, Bool.and_eq_true, decide_eq_true_eq] at h
    simp only [List.mem_cons, List.not_mem_nil, or_false]
    tauto
  have hc : c = Char.ofNat c.toNat := (Char.ofNat_toNat c).symm
  rcases h1 with h1 | h1 | h1
  · rw [hc, h1]; decide
  · obtain ⟨a, b⟩ := h1
    rw [hc]
    generalize c.toNat = k at a b
    interval_cases k <;> decide
  · simp only [List.mem_cons, List.not_mem_nil, or_false] at h1
    rcases h1 with rfl | rfl | rfl | rfl | rfl | rfl | rfl <;> decide

theorem isTerm_head {s : List Char} (h : isTerm s = true) : ∀ c, s.head? = some c → isArg c = false := by
  intro c hc
  cases s with
  | nil => cases hc
  | cons d r => simp only [List.head?_cons, Option.some.injEq] at hc; subst hc; exact term_not_arg h

theorem skiparg_like (w rest : List Char) (hw : ArgLike w) (hr : isTerm rest = true) : skiparg (w ++ rest) = skipcom rest := by
  obtain ⟨hp, ht⟩ := hw
  obtain ⟨c, w', rfl⟩ := List.exists_cons_of_ne_nil hp.ne
  refine skiparg_word c w' rest (hp.graph c (by simp)) ?_ ht (isTerm_head hr)
  rintro rfl
  have := hp.noTerm ',' (by simp)
  cases this

theorem skiparg_text (w : List Char) (g : Gap) (l : List (List Char × Gap)) (z : List Char) (hw : ∀ c ∈ w.tail, isArg c = true)
    (hl : Good z ((w, g) :: l)) (hz : Next z) : skiparg (text ((w, g) :: l) z) = text l z := by
  change skiparg (w ++ (g.text ++ text l z)) = _
  rw [skiparg_like w _ ⟨hl.1, hw⟩ hl.2.2.1, skipcom_gap g hl.2.1 _ (text_next l z hl.2.2.2 hz)]

/-- one character that is a sign -/
theorem umatch_char (ci : Bool) (a : Char) (ha : special a = false) (na : a.toNat < 65) (s : List Char) :
    umatch ci [a] s = if (skipbl s).head? = some a then .ok (skipcom (skipbl s).tail) else .fail := by
  have e : [a] = segText [.lit a] := rfl
  rw [e, umatch_single ci [.lit a] (by simp [Seg.wf, ha])]
  cases h : skipbl s with
  | nil => simp [segMatch]
  | cons d t =>
    simp only [segMatch, eqc_symbol ci d a na, beq_iff_eq, List.head?_cons, Option.some.injEq, List.tail_cons]
    by_cases hd : d = a <;> simp [hd]

/-- characters the scanner looks for -/
structure Sign (c : Char) : Prop where
  sp : special c = false
  low : c.toNat < 65
  graph : isGraph c = true
  arg : isArg c = false
  noComma : c ≠ ','

theorem sign_close : Sign ')' := ⟨by decide, by decide, by decide, by decide, by decide⟩
theorem sign_eq : Sign '=' := ⟨by decide, by decide, by decide, by decide, by decide⟩

theorem skipbl_before (c : Char) (hg : isGraph c = true) (t : List Char) : ∀ u : List Char, ∃ u', skipbl (u ++ c :: t) = u' ++ c :: t ∧ u' <:+ u ∧
    (u' = [] ∨ ∃ d v, u' = d :: v ∧ isGraph d = true)
  | [] => ⟨[], by simp [skipbl_cons t hg], List.suffix_refl _, .inl rfl⟩
  | d :: u => by
    by_cases hd : isGraph d = true
    · exact ⟨d :: u, by rw [List.cons_append, skipbl_cons _ hd], List.suffix_refl _, .inr ⟨d, u, rfl, hd⟩⟩
    · obtain ⟨u', h1, h2, h3⟩ := skipbl_before c hg t u
      refine ⟨u', ?_, h2.trans (List.suffix_cons _ _), h3⟩
      rw [← h1, List.cons_append]
      conv_lhs => unfold skipbl
      rw [if_neg hd]

theorem skipcom_before (c : Char) (hc : Sign c) (t u : List Char) : ∃ u', skipcom (u ++ c :: t) = u' ++ c :: t ∧ u' <:+ u := by
  obtain ⟨u', h1, h2, -⟩ := skipbl_before c hc.graph t u
  unfold Scan.skipcom
  rw [h1]
  cases u' with
  | nil =>
    refine ⟨[], ?_, List.nil_suffix⟩
    simp only [List.nil_append]
    split
    · rename_i heq; injection heq with e _; exact absurd e hc.noComma
    · rfl
  | cons d v =>
    simp only [List.cons_append]
    split
    · rename_i r heq
      injection heq with e1 e2
      subst e2
      obtain ⟨v', g1, g2, -⟩ := skipbl_before c hc.graph t v
      exact ⟨v', g1, (g2.trans (List.suffix_cons _ _)).trans h2⟩
    · exact ⟨d :: v, rfl, h2⟩

theorem dropArg_before (c : Char) (hc : isArg c = false) (t : List Char) : ∀ u : List Char, ∃ u', (u ++ c :: t).dropWhile isArg = u' ++ c :: t ∧ u' <:+ u
  | [] => ⟨[], by simp [hc], List.suffix_refl _⟩
  | d :: u => by
    by_cases hd : isArg d = true
    · obtain ⟨u', h1, h2⟩ := dropArg_before c hc t u
      exact ⟨u', by rw [List.cons_append, List.dropWhile_cons_of_pos hd, h1], h2.trans (List.suffix_cons _ _)⟩
    · exact ⟨d :: u, by rw [List.cons_append, List.dropWhile_cons_of_neg hd], List.suffix_refl _⟩

/-- skipping an argument does not skip the sign -/
theorem skiparg_before (c : Char) (hc : Sign c) (t : List Char) (d : Char) (v : List Char) (hd : isGraph d = true) :
    ∃ u', skiparg (d :: v ++ c :: t) = u' ++ c :: t ∧ u' <:+ v := by
  unfold skiparg
  rw [List.cons_append, skipbl_cons _ hd]
  split
  · rename_i heq; cases heq
  · rename_i r heq
    injection heq with _ e2
    subst e2
    obtain ⟨v', g1, g2, -⟩ := skipbl_before c hc.graph t v
    exact ⟨v', g1, g2⟩
  · rename_i heq
    injection heq with _ e2
    subst e2
    obtain ⟨v', g1, g2⟩ := dropArg_before c hc.arg t v
    obtain ⟨v2, g3, g4⟩ := skipcom_before c hc t v'
    exact ⟨v2, by rw [g1, g3], g4.trans g2⟩

/-- **C78, scanning**: the first of the characters looked for is found, whatever stands before it. -/
theorem scan_finds (ci : Bool) (c : Char) (hc : Sign c) (t : List Char) : ∀ (n : ℕ) (u : List Char), c ∉ u → u.length < n →
    scan ci [c] n (u ++ c :: t) = some (skipcom t)
  | 0, _, _, h => absurd h (by omega)
  | n + 1, u, hu, hn => by
    obtain ⟨u', h1, h2, h3⟩ := skipbl_before c hc.graph t u
    have hu' : c ∉ u' := fun h => hu (h2.subset h)
    unfold scan
    rw [umatch_char ci c hc.sp hc.low, h1]
    rcases h3 with rfl | ⟨d, v, rfl, hd⟩
    · simp
    · have hdc : d ≠ c := by rintro rfl; exact hu' (by simp)
      simp only [List.cons_append, List.head?_cons, Option.some.injEq, hdc, if_false, reduceCtorEq]
      obtain ⟨w, g1, g2⟩ := skiparg_before c hc t d v hd
      rw [List.cons_append] at g1
      rw [g1]
      have := h2.length_le
      have := g2.length_le
      simp only [List.length_cons] at *
      exact scan_finds ci c hc t n w (fun h => hu' (List.mem_cons_of_mem _ (g2.subset h))) (by omega)

theorem skiparg_suffix (s : List Char) : skiparg s <:+ s := by
  have a := skipbl_suffix s
  unfold skiparg
  cases h : skipbl s with
  | nil => exact List.nil_suffix
  | cons c r =>
    rw [h] at a
    have b := (List.suffix_cons c r).trans a
    split
    · rename_i heq; cases heq
    · rename_i heq; injection heq with _ e; subst e; exact (skipbl_suffix _).trans b
    · rename_i heq; injection heq with _ e; subst e; exact ((skipcom_suffix _).trans (List.dropWhile_suffix _)).trans b

theorem scan_none (ci : Bool) (c : Char) (hc : Sign c) : ∀ (n : ℕ) (s : List Char), c ∉ s → scan ci [c] n s = none
  | 0, _, _ => rfl
  | n + 1, s, hs => by
    have h1 : c ∉ skipbl s := fun h => hs ((skipbl_suffix s).subset h)
    unfold scan
    rw [umatch_char ci c hc.sp hc.low]
    have h2 : (skipbl s).head? ≠ some c := fun h => h1 (List.mem_of_mem_head? h)
    rw [if_neg h2]
    simp only
    split
    · rfl
    · exact scan_none ci c hc n _ (fun h => h1 ((skiparg_suffix _).subset h))

example : Sign ')' ∧ ')' ∉ ['(', 'a', ',', ' ', 'b', '!'] := ⟨sign_close, by decide⟩

/-! ## What a line is -/

theorem hits_alts (ci : Bool) (alts : List (List Seg)) (hne : alts ≠ []) (h : ∀ a ∈ alts, ∀ s ∈ a, s.wf = true) (s : List Char)
    (hs : skipbl s = s) : hits ci (altText alts) s = alts.any fun a => hits ci (segText a) s := by
  have h1 : hits ci (altText alts) s = (firstMatch ci alts s).isSome := by
    unfold hits
    rw [umatch_first_partial ci alts hne h s hs]
    cases firstMatch ci alts s <;> rfl
  rw [h1]
  unfold firstMatch
  clear h1 hne
  induction alts with
  | nil => rfl
  | cons a r ih =>
    have h2 : hits ci (segText a) s = (segMatch ci a s).isSome := by
      unfold hits
      rw [umatch_single ci a (h a (by simp)), hs]
      cases segMatch ci a s <;> rfl
    rw [List.any_cons, h2, ← ih (fun b hb => h b (by simp [hb]))]
    rw [List.findSome?_cons]
    cases segMatch ci a s <;> simp

theorem no_comment (ci : Bool) (w rest : List Char) (hw : Plain w) (hr : isTerm rest = true) (h : Ordinary ci w) :
    hits ci commentPat (w ++ rest) = false := by
  have hs := (hw.next rest).skipbl
  have e : commentPat = altText [[.lit '*'], [.lit '/', .lit '/']] := rfl
  rw [e, hits_alts ci _ (by simp) (by decide) _ hs]
  obtain ⟨c, w', rfl⟩ := List.exists_cons_of_ne_nil hw.ne
  have h1 : hits ci (segText [.lit '*']) (c :: w' ++ rest) = false := by
    change hits ci ['*'] _ = false
    unfold hits
    rw [umatch_char ci '*' (by decide) (by decide), hs, List.cons_append]
    have : c ≠ '*' := fun e => h.noStar ⟨w', by simp [e]⟩
    simp [this]
  have h2 : hits ci (segText [.lit '/', .lit '/']) (c :: w' ++ rest) = false := by
    change hits ci ['/', '/'] _ = false
    unfold hits
    rw [pair_miss ci '/' '/' (by decide) (by decide) (by decide) (by decide) _ (by
      rw [hs]
      intro hp
      apply h.noSlash
      cases w' with
      | nil =>
        obtain ⟨t, ht⟩ := hp
        simp only [List.cons_append, List.nil_append, List.cons.injEq] at ht
        cases rest with
        | nil => simp at ht
        | cons d r =>
          simp only [List.cons.injEq] at ht
          rw [← ht.2.1] at hr
          simp only [isTerm] at hr
          exact absurd hr (by decide)
      | cons d w' =>
        obtain ⟨t, ht⟩ := hp
        simp only [List.cons_append, List.nil_append, List.cons.injEq] at ht
        exact ⟨w', by rw [← ht.1, ← ht.2.1]; rfl⟩)]
  rw [List.any_cons, List.any_cons, h1, h2]
  rfl

theorem no_control (ci : Bool) (w rest : List Char) (hw : Plain w) (hr : isTerm rest = true) (h : Ordinary ci w) :
    hits ci controlPat (w ++ rest) = false := by
  have hs := (hw.next rest).skipbl
  have e : controlPat = altText [(['m', 'o', 'd', 'e', 'l'].map .lit ++ [.delim]), (['s', 'i', 'm', 'u', 'l', 'a', 't', 'o', 'r'].map .lit ++ [.delim]),
    (['p', 'a', 'r', 'a', 'm', 'e', 't', 'e', 'r', 's'].map .lit ++ [.delim]), (['s', 'u', 'b', 'c', 'k', 't'].map .lit ++ [.delim])] := rfl
  rw [e, hits_alts ci _ (by simp) (by decide) _ hs, Bool.eq_false_iff]
  intro hk
  obtain ⟨n1, n2, n3, n4⟩ := h.noWord
  rw [List.any_eq_true] at hk
  obtain ⟨k, hk, hh⟩ := hk
  simp only [List.mem_cons, List.not_mem_nil, or_false] at hk
  rcases hk with rfl | rfl | rfl | rfl
  · exact n1 (hits_key ci ['m', 'o', 'd', 'e', 'l'] w rest (by decide) (by decide) hw hr hh)
  · exact n2 (hits_key ci ['s', 'i', 'm', 'u', 'l', 'a', 't', 'o', 'r'] w rest (by decide) (by decide) hw hr hh)
  · exact n3 (hits_key ci ['p', 'a', 'r', 'a', 'm', 'e', 't', 'e', 'r', 's'] w rest (by decide) (by decide) hw hr hh)
  · exact n4 (hits_key ci ['s', 'u', 'b', 'c', 'k', 't'] w rest (by decide) (by decide) hw hr hh)

/-! ## Parameters -/

theorem ctos_len (term : List Char) (q : List (Char × Char)) (s : List Char) : (ctos term q s).2.length ≤ s.length := by
  have h := (skipbl_suffix s).length_le
  unfold ctos
  simp only
  cases hs : skipbl s with
  | nil => simp [skipcom, skipbl]
  | cons c r =>
    rw [hs] at h
    simp only [List.length_cons] at h
    simp only
    split
    · have := ((skipcom_suffix (quoted c (by assumption) 1 false r).2).trans (quoted_suffix _ _ _ _ _)).length_le
      simp only
      omega
    · have := ((skipcom_suffix (List.dropWhile (fun c => !stops term c) (c :: r))).trans (List.dropWhile_suffix _)).length_le
      simp only [List.length_cons] at this
      simp only
      omega

/-- one parameter takes something -/
theorem arg_moves (s : List Char) (hs : skipbl s ≠ []) :
    (ctos [] [('(', ')')] (skip1b ['='] (ctos ['='] [] (skipbl s)).2).2).2.length < (skipbl s).length := by
  have h1 := ctos_len [] [('(', ')')] (skip1b ['='] (ctos ['='] [] (skipbl s)).2).2
  have h2 := (skip1b_suffix ['='] (ctos ['='] [] (skipbl s)).2).length_le
  have h3 := ctos_len ['='] [] (skipbl s)
  obtain ⟨c, r, hc⟩ := List.exists_cons_of_ne_nil hs
  have hg : isGraph c = true := by
    by_contra hn
    have h := skipbl_idem s
    rw [hc] at h
    have h' : skipbl (c :: r) = skipbl r := by conv_lhs => unfold skipbl
                                               rw [if_neg hn]
    rw [h'] at h
    have := (skipbl_suffix r).length_le
    rw [h] at this
    simp at this
  by_cases he : c = '='
  · subst he
    have e1 : ctos ['='] [] ('=' :: r) = ([], '=' :: r) := by
      unfold ctos
      simp only [skipbl_cons r hg, List.lookup_nil]
      have : stops ['='] '=' = true := by decide
      simp only [List.takeWhile_cons, List.dropWhile_cons, this, Bool.not_true, Bool.false_eq_true, if_false]
      rw [(Next.skipcom (.inr ⟨'=', r, rfl, hg, by decide⟩))]
    rw [hc, e1, skip1b_hit ['='] '=' r hg (by decide)] at h1
    have := (skipbl_suffix r).length_le
    rw [hc, e1, skip1b_hit ['='] '=' r hg (by decide)]
    simp only [List.length_cons] at *
    omega
  · have : (ctos ['='] [] (skipbl s)).2.length < (skipbl s).length := by
      rw [hc]
      unfold ctos
      simp only [skipbl_cons r hg, List.lookup_nil]
      have : stops ['='] c = false := by simp [stops, graph_not_space hg, he]
      simp only [List.dropWhile_cons, this, Bool.not_false, if_true]
      have := ((skipcom_suffix (List.dropWhile (fun c => !stops ['='] c) r)).trans (List.dropWhile_suffix _)).length_le
      simp only [List.length_cons]
      omega
    omega

/-- all parameters of a text -/
def all (s : List Char) : List (List Char × List Char) × List Char := args (s.length + 1) (s.length + 1) s

theorem args_same : ∀ (n m last last' : ℕ) (s : List Char), s.length < n → s.length < m → (skipbl s).length < last → (skipbl s).length < last' →
    args n last s = args m last' s
  | 0, _, _, _, _, h, _, _, _ => absurd h (by omega)
  | _ + 1, 0, _, _, _, _, h, _, _ => absurd h (by omega)
  | n + 1, m + 1, last, last', s, h1, h2, h3, h4 => by
    unfold args
    by_cases hs : skipbl s = []
    · rw [if_pos hs, if_pos hs]
    · rw [if_neg hs, if_neg hs, if_neg (by omega), if_neg (by omega)]
      have h5 := arg_moves s hs
      have h6 := (skipbl_suffix s).length_le
      have h7 := (skipbl_suffix (ctos [] [('(', ')')] (skip1b ['='] (ctos ['='] [] (skipbl s)).2).2).2).length_le
      simp only
      rw [args_same n m _ (skipbl s).length _ (by omega) (by omega) (by omega) (by omega)]

theorem args_all (n last : ℕ) (s : List Char) (h1 : s.length < n) (h2 : (skipbl s).length < last) : args n last s = all s :=
  args_same _ _ _ _ _ h1 (by omega) h2 (by have := (skipbl_suffix s).length_le; omega)

theorem all_skipbl (s : List Char) : all (skipbl s) = all s := by
  have h := (skipbl_suffix s).length_le
  unfold all
  rw [args_same _ (s.length + 1) _ (s.length + 1) (skipbl s) (by omega) (by omega) (by rw [skipbl_idem]; omega) (by rw [skipbl_idem]; omega)]
  unfold args
  simp only [skipbl_idem]

theorem all_nil : all [] = ([], []) := rfl

/-- the parameters, one by one -/
theorem all_step (s : List Char) (hs : skipbl s ≠ []) :
    all s = (((ctos ['='] [] (skipbl s)).1, (ctos [] [('(', ')')] (skip1b ['='] (ctos ['='] [] (skipbl s)).2).2).1) ::
      (all (ctos [] [('(', ')')] (skip1b ['='] (ctos ['='] [] (skipbl s)).2).2).2).1,
      (all (ctos [] [('(', ')')] (skip1b ['='] (ctos ['='] [] (skipbl s)).2).2).2).2) := by
  have h5 := arg_moves s hs
  have h6 := (skipbl_suffix s).length_le
  have h7 := (skipbl_suffix (ctos [] [('(', ')')] (skip1b ['='] (ctos ['='] [] (skipbl s)).2).2).2).length_le
  conv_lhs => unfold all args
  rw [if_neg hs, if_neg (by omega)]
  simp only
  rw [args_all _ _ _ (by omega) (by omega)]

/-- **C78, parameters**: whatever the text, its parameters end, and nothing of it is left over. -/
theorem args_end (n last : ℕ) (s : List Char) (h1 : s.length < n) (h2 : (skipbl s).length < last) : (args n last s).2 = [] := by
  rw [args_all n last s h1 h2]
  clear h1 h2
  induction hk : s.length using Nat.strong_induction_on generalizing s with
  | _ k ih =>
    by_cases hs : skipbl s = []
    · have h := all_skipbl s
      rw [hs, all_nil] at h
      rw [← h]
    · rw [all_step s hs]
      have h5 := arg_moves s hs
      have h6 := (skipbl_suffix s).length_le
      exact ih _ (by omega) _ rfl

example : (skipbl ['r', '=', '=', '(', '1']).length < 6 := by decide

/-- what may stand behind a value -/
def Behind (s : List Char) : Prop := ∀ c, s.head? = some c → isSpace c = true

theorem behind_args (l : List (List Char × List Char)) : Behind (l.flatMap argText) := by
  intro c hc
  cases l with
  | nil => cases hc
  | cons a l =>
    simp only [List.flatMap_cons, argText, List.cons_append, List.head?_cons, Option.some.injEq] at hc
    subst hc; decide

theorem skipbl_blank (s : List Char) : skipbl (' ' :: s) = skipbl s := by
  rw [show ' ' :: s = [' '] ++ s from rfl, skipbl_blanks _ _ (by decide)]

theorem ArgName.next {w : List Char} (h : ArgName w) (r : List Char) : Next (w ++ r) := by
  obtain ⟨c, w', rfl⟩ := List.exists_cons_of_ne_nil h.ne
  exact .inr ⟨c, w' ++ r, rfl, h.graph c (by simp), fun e => h.head (by simp [e])⟩

theorem skipcom_skipbl (s : List Char) (h : Next (skipbl s)) : skipcom s = skipbl s := by
  have := h.skipcom
  unfold Scan.skipcom at this ⊢
  rwa [skipbl_idem] at this

/-- one name -/
theorem name_read (nm r : List Char) (hn : ArgName nm) (hr : ∀ c, r.head? = some c → c = '=' ∨ isSpace c = true) :
    ctos ['='] [] (skipbl (nm ++ r)) = (nm, skipcom r) := by
  rw [(hn.next r).skipbl]
  refine ctos_plain _ _ _ _ hn.ne hn.graph ?_ (by simp) ?_
  · intro c hc
    simp only [List.contains_cons, List.contains_nil, Bool.or_false, beq_eq_false_iff_ne]
    rintro rfl
    exact hn.noEq hc
  · intro c hc
    rcases hr c hc with rfl | h
    · decide
    · simp [stops, h]

theorem value_read (v r : List Char) (hv : ArgValue v) (hr : Behind r) : ctos [] [('(', ')')] (v ++ r) = (v, skipcom r) := by
  refine ctos_plain _ _ _ _ hv.ne hv.graph (by simp) ?_ ?_
  · intro c hc
    have : c ≠ '(' := fun e => hv.head (by rw [hc, e])
    simp [List.lookup, beq_false_of_ne this]
  · intro c hc; simp [stops, hr c hc]

theorem eq_read (v r : List Char) (hv : ∀ c, v.head? = some c → isGraph c = true) (hne : v ≠ []) :
    skip1b ['='] (skipcom ('=' :: (v ++ r))) = (true, v ++ r) := by
  obtain ⟨c, v', rfl⟩ := List.exists_cons_of_ne_nil hne
  rw [(Next.skipcom (.inr ⟨'=', _, rfl, by decide, by decide⟩)), skip1b_hit ['='] '=' _ (by decide) (by decide), List.cons_append,
    skipbl_cons _ (hv c rfl)]

theorem all_skipcom (s : List Char) (h : Next (skipbl s)) : all (skipcom s) = all s := by rw [skipcom_skipbl s h, all_skipbl]

theorem all_arg (nm v r : List Char) (hn : ArgName nm) (hv : ArgValue v) (hr : Behind r) (hx : Next (skipbl r)) :
    all (' ' :: (nm ++ '=' :: (v ++ r))) = ((nm, v) :: (all r).1, (all r).2) := by
  have h0 : skipbl (' ' :: (nm ++ '=' :: (v ++ r))) = nm ++ '=' :: (v ++ r) := by rw [skipbl_blank, (hn.next _).skipbl]
  have hne : skipbl (nm ++ '=' :: (v ++ r)) ≠ [] := by
    rw [(hn.next _).skipbl]; simp
  rw [← all_skipbl, h0, all_step _ hne, name_read nm _ hn (by intro c hc; simp at hc; exact .inl hc.symm)]
  simp only
  rw [eq_read v r (fun c hc => hv.graph c (List.mem_of_mem_head? hc)) hv.ne]
  simp only
  rw [value_read v r hv hr]
  simp only
  rw [all_skipcom r hx]

theorem args_next (l : List (List Char × List Char)) (h : ∀ a ∈ l, ArgName a.1) : Next (skipbl (l.flatMap argText)) := by
  cases l with
  | nil => exact .inl rfl
  | cons a l =>
    simp only [List.flatMap_cons, argText, List.cons_append, List.append_assoc]
    rw [skipbl_blank, ((h a (by simp)).next _).skipbl]
    exact (h a (by simp)).next _

theorem all_lead (z : List Char) (hb : Behind z) (hz : Next (skipbl z)) : ∀ l : List (List Char × List Char), (∀ a ∈ l, ArgName a.1 ∧ ArgValue a.2) →
    all (l.flatMap argText ++ z) = (l ++ (all z).1, (all z).2) ∧ Behind (l.flatMap argText ++ z) ∧ Next (skipbl (l.flatMap argText ++ z))
  | [], _ => by simp [hb, hz]
  | a :: l, h => by
    obtain ⟨h1, h2, h3⟩ := all_lead z hb hz l (fun x hx => h x (by simp [hx]))
    obtain ⟨ha, hv⟩ := h a (by simp)
    have e : (a :: l).flatMap argText ++ z = ' ' :: (a.1 ++ '=' :: (a.2 ++ (l.flatMap argText ++ z))) := by simp [argText]
    rw [e]
    refine ⟨?_, ?_, ?_⟩
    · rw [all_arg _ _ _ ha hv h2 h3, h1]; simp
    · intro c hc; simp at hc; subst hc; decide
    · rw [skipbl_blank, (ha.next _).skipbl]; exact ha.next _

theorem all_list (l : List (List Char × List Char)) (h : ∀ a ∈ l, ArgName a.1 ∧ ArgValue a.2) : all (l.flatMap argText) = (l, []) := by
  have := (all_lead [] (by intro c hc; cases hc) (.inl rfl) l h).1
  simpa [all_nil] using this

/-! ## Listing and reading back -/

/-- names with blanks in between -/
def sep : List (List Char) → List (List Char × Gap)
  | [] => []
  | [a] => [(a, ⟨[], false, []⟩)]
  | a :: l => (a, ⟨[' '], false, []⟩) :: sep l

theorem blanks_text : ∀ (l : List (List Char)) (z : List Char), blanks l ++ z = text (sep l) z
  | [], _ => rfl
  | [a], z => by simp [blanks, sep, text, Gap.text]
  | a :: b :: l, z => by
    have := blanks_text (b :: l) z
    simp only [blanks, sep, text, Gap.text] at this ⊢
    simp only [List.append_assoc, List.cons_append] at this ⊢
    rw [this]
    simp

theorem sep_good : ∀ (l : List (List Char)) (z : List Char), (∀ w ∈ l, Plain w) → isTerm z = true → Good z (sep l)
  | [], _, _, _ => trivial
  | [a], z, h, hz => ⟨h a (by simp), ⟨by simp, by simp⟩, by simpa [Gap.text, text] using hz, trivial⟩
  | a :: b :: l, z, h, hz => by
    refine ⟨h a (by simp), ⟨by simp; decide, by simp⟩, ?_, sep_good (b :: l) z (fun w hw => h w (by simp [hw])) hz⟩
    simp [Gap.text, isTerm]; decide

theorem sep_names : ∀ l : List (List Char), (sep l).map Prod.fst = l
  | [] => rfl
  | [a] => rfl
  | a :: b :: l => by simp [sep, sep_names (b :: l)]

theorem text_length : ∀ (l : List (List Char × Gap)) (z : List Char), Good z l → l.length + z.length ≤ (text l z).length
  | [], z, _ => by simp [text]
  | (w, g) :: l, z, h => by
    have := text_length l z h.2.2.2
    have h1 : w.length ≠ 0 := by simpa using h.1.ne
    simp only [text, List.length_append, List.length_cons]
    omega

theorem take_snoc {α : Type} (a : List α) (w : α) (r : List α) (max : ℕ) (h : a.length ≤ max) :
    ((if a.length < max then a ++ [w] else a) ++ r).take max = (a ++ w :: r).take max ∧ (if a.length < max then a ++ [w] else a).length ≤ max := by
  by_cases hm : a.length < max
  · simp only [if_pos hm]
    exact ⟨by simp, by simp; omega⟩
  · have : a.length = max := by omega
    simp only [if_neg hm]
    subst this
    simp

theorem ports_words (max : ℕ) (z : List Char) : ∀ (l : List (List Char × Gap)) (n : ℕ) (acc : List (List Char)),
    Good (')' :: z) l → (∀ a ∈ l, NodeName a.1) → l.length < n → acc.length ≤ max →
    portsIn max n acc (text l (')' :: z)) = ((acc ++ l.map Prod.fst).take max, ')' :: z)
  | _, 0, _, _, _, h, _ => absurd h (by omega)
  | [], n + 1, acc, _, _, _, h => by
    have : alnumAt ')' = false := by decide
    simp [portsIn, text, this, List.take_of_length_le h]
  | (w, g) :: l, n + 1, acc, hG, hn, hl, ha => by
    obtain ⟨hw, hh⟩ := hn (w, g) (by simp)
    have hz : Next (')' :: z) := .inr ⟨')', z, rfl, by decide, by decide⟩
    have h1 := word_text w g l (')' :: z) hG hz
    obtain ⟨c, w', rfl⟩ := List.exists_cons_of_ne_nil hw.ne
    have e : text ((c :: w', g) :: l) (')' :: z) = c :: (w' ++ (g.text ++ text l (')' :: z))) := rfl
    obtain ⟨t1, t2⟩ := take_snoc acc (c :: w') (l.map Prod.fst) max ha
    rw [e] at h1 ⊢
    simp only [portsIn]
    rw [if_pos (hh c rfl), h1]
    simp only [List.length_cons] at hl
    rw [ports_words max z l n _ hG.2.2.2 (fun a ha => hn a (by simp [ha])) (by omega) t2, t1]
    rfl

/-- behind the type -/
theorem type_args (type : List Char) (a : List (List Char × List Char)) (b : List Char) (hb : ∀ c ∈ b, c = ' ') (ht : Plain type)
    (ha : ∀ x ∈ a, ArgName x.1 ∧ ArgValue x.2) (hne : b ≠ []) (z : List Char) (hB : Behind z) (hz : Next (skipbl z)) :
    (word (type ++ (b ++ (a.flatMap argText ++ z)))).1 = type ∧
      ∀ n last, (word (type ++ (b ++ (a.flatMap argText ++ z)))).2.length < n →
        (type ++ (b ++ (a.flatMap argText ++ z))).length ≤ last →
        args n last (word (type ++ (b ++ (a.flatMap argText ++ z)))).2 = (a ++ (all z).1, (all z).2) := by
  have hbs : ∀ c ∈ b, isSpace c = true := fun c hc => by rw [hb c hc]; decide
  have hT : isTerm (b ++ (a.flatMap argText ++ z)) = true := by
    obtain ⟨c, b', rfl⟩ := List.exists_cons_of_ne_nil hne
    have : c = ' ' := hb c (by simp)
    subst this
    simp [isTerm]; decide
  obtain ⟨h1, -, h3⟩ := all_lead z hB hz a ha
  rw [word_plain type _ ht hT]
  refine ⟨rfl, fun n last hn hl => ?_⟩
  have h4 : skipcom (b ++ (a.flatMap argText ++ z)) = skipbl (a.flatMap argText ++ z) := by
    have : skipbl (b ++ (a.flatMap argText ++ z)) = skipbl (a.flatMap argText ++ z) := skipbl_blanks _ _ hbs
    rw [skipcom_skipbl _ (by rw [this]; exact h3), this]
  have h5 : type.length ≠ 0 := by simpa using ht.ne
  have h6 := (skipbl_suffix (a.flatMap argText ++ z)).length_le
  simp only [h4] at hn ⊢
  rw [args_all n last _ hn (by rw [skipbl_idem]; simp only [List.length_append] at hl h6 ⊢; omega), all_skipbl, h1]

/-- **C78, round trip**: an instance that is listed is read again exactly, as long as its nodes are not too many; ports that are not
given are grounded. -/
theorem list_read (ci : Bool) (max min n : ℕ) (x : Inst) (h : Listable x) (hp : x.ports.length ≤ max) :
    parseInst ci max min n (listInst x) =
      some ⟨some x.label, x.ports ++ List.replicate (min - x.ports.length) ['0'], x.type, x.args, []⟩ := by
  have hnw : ∀ w ∈ x.ports, Plain w := fun w hw => (h.ports w hw).1
  set A : List Char := ' ' :: (x.type ++ (' ' :: x.args.flatMap argText)) with hA
  have e0 : listInst x = x.label ++ (' ' :: '(' :: (blanks x.ports ++ ')' :: A)) := by simp [listInst, portsText, hA]
  have hsk : skipcom (' ' :: '(' :: (blanks x.ports ++ ')' :: A)) = '(' :: (blanks x.ports ++ ')' :: A) := by
    rw [skipcom_skipbl]
    · rw [skipbl_blank, skipbl_cons _ (by decide)]
    · rw [skipbl_blank, skipbl_cons _ (by decide)]; exact .inr ⟨'(', _, rfl, by decide, by decide⟩
  have hG : Good (')' :: A) (sep x.ports) := sep_good _ _ hnw (by simp [isTerm]; decide)
  have hzc : Next (')' :: A) := .inr ⟨')', A, rfl, by decide, by decide⟩
  have hin : skip1b ['('] ('(' :: (blanks x.ports ++ ')' :: A)) = (true, blanks x.ports ++ ')' :: A) := by
    rw [skip1b_hit ['('] '(' _ (by decide) (by decide), blanks_text, (text_next _ _ hG hzc).skipbl]
  have hlen := text_length _ _ hG
  have hpl : portsIn max ((blanks x.ports ++ ')' :: A).length + 1) [] (blanks x.ports ++ ')' :: A) = (x.ports, ')' :: A) := by
    rw [blanks_text, ports_words max A (sep x.ports) _ [] hG (fun a ha => h.ports a.1 (by
      rw [← sep_names x.ports]; exact List.mem_map_of_mem ha)) (by omega) (by simp)]
    rw [List.nil_append, sep_names, List.take_of_length_le hp]
  have hout : skip1b [')'] (')' :: A) = (true, x.type ++ (' ' :: x.args.flatMap argText)) := by
    rw [skip1b_hit [')'] ')' _ (by decide) (by decide), hA, skipbl_blank, (h.type.next _).skipbl]
  have hl : word (listInst x) = (x.label, '(' :: (blanks x.ports ++ ')' :: A)) := by
    rw [e0, word_plain _ _ h.label (by simp [isTerm]; decide), hsk]
  obtain ⟨t1, t2⟩ := type_args x.type x.args [' '] (by simp) h.type h.args (by simp) [] (by intro c hc; cases hc) (.inl rfl)
  simp only [List.append_nil, all_nil, List.cons_append, List.nil_append] at t1 t2
  unfold parseInst ports
  rw [hl]
  simp only [hin, if_true, hpl, hout, Option.map_some, named, if_neg h.label.ne, t1]
  rw [t2 _ _ (by omega) (by rw [e0, hA]; simp only [List.length_append, List.length_cons]; omega)]

theorem nodeName (w : List Char) (h : Plain w) (c : Char) (r : List Char) (e : w = c :: r) (hc : alnumAt c = true) : NodeName w :=
  ⟨h, by intro d hd; rw [e] at hd; simp at hd; subst hd; exact hc⟩

def sampleInst : Inst := ⟨['r', '1'], [['a'], ['0'], ['n', '!']], ['r', 'e', 's'], [(['r'], ['1', 'k', '*', '(', '2', ')']), (['m'], ['=', ','])]⟩

theorem sample_listable : Listable sampleInst where
  label := plain_of _ (by decide)
  ports := by
    intro w hw
    simp only [sampleInst, List.mem_cons, List.not_mem_nil, or_false] at hw
    rcases hw with rfl | rfl | rfl
    · exact nodeName _ (plain_of _ (by decide)) _ _ rfl (by decide)
    · exact nodeName _ (plain_of _ (by decide)) _ _ rfl (by decide)
    · exact nodeName _ (plain_of _ (by decide)) _ _ rfl (by decide)
  type := plain_of _ (by decide)
  args := by
    intro a ha
    simp only [sampleInst, List.mem_cons, List.not_mem_nil, or_false] at ha
    rcases ha with rfl | rfl
    · exact ⟨⟨by decide, by decide, by decide, by decide⟩, ⟨by decide, by decide, by decide⟩⟩
    · exact ⟨⟨by decide, by decide, by decide, by decide⟩, ⟨by decide, by decide, by decide⟩⟩

example : parseInst false 4 2 0 (listInst sampleInst) = some ⟨some ['r', '1'], [['a'], ['0'], ['n', '!']], ['r', 'e', 's'], sampleInst.args, []⟩ :=
  list_read false 4 2 0 sampleInst sample_listable (by decide)

/-! ## The nodes are within bounds -/

theorem portsIn_le (max : ℕ) : ∀ (n : ℕ) (acc : List (List Char)) (s : List Char), acc.length ≤ max → (portsIn max n acc s).1.length ≤ max
  | 0, _, _, h => h
  | n + 1, acc, [], h => h
  | n + 1, acc, c :: r, h => by
    unfold portsIn
    simp only
    split
    · exact portsIn_le max n _ _ (take_snoc acc _ [] max h).2
    · exact h

theorem portsBare_le (max stop : ℕ) : ∀ (n : ℕ) (acc : List (List Char)) (s : List Char) (l : List (List Char) × List Char), acc.length ≤ max →
    portsBare max stop n acc s = some l → l.1.length ≤ max
  | 0, _, _, _, _, h => by cases h
  | n + 1, acc, s, l, ha, h => by
    unfold portsBare at h
    split at h
    · exact portsBare_le max stop n _ _ l (take_snoc acc _ [] max ha).2 h
    · cases h; exact ha

/-- **C78, labels**: whatever the line, an instance or a model has no empty label: it has one of its own, or one is made up. -/
theorem label_full (ci : Bool) (max min n : ℕ) (full : List Char) :
    (∀ r, parseInst ci max min n full = some r → r.label ≠ some []) ∧ (parseModel ci full).1 ≠ some [] := by
  have h : ∀ w, named w ≠ some [] := by
    intro w; unfold named; split
    · simp
    · rename_i h; simpa using h
  refine ⟨fun r hr => ?_, h _⟩
  unfold parseInst at hr
  simp only [Option.map_eq_some_iff] at hr
  obtain ⟨p, _, rfl⟩ := hr
  exact h _

example : named [] = none ∧ named ['r', '1'] = some ['r', '1'] := by decide

/-- **C78, number of nodes**: whatever the line, the nodes set are no more than the device has and no fewer than it needs. -/
theorem ports_bounds (ci : Bool) (max min n : ℕ) (hm : min ≤ max) (full : List Char) (r : Read) (h : parseInst ci max min n full = some r) :
    min ≤ r.ports.length ∧ r.ports.length ≤ max := by
  unfold parseInst at h
  simp only [Option.map_eq_some_iff] at h
  obtain ⟨p, hp, rfl⟩ := h
  unfold ports at hp
  simp only [Option.map_eq_some_iff] at hp
  obtain ⟨l, hl, rfl⟩ := hp
  have : l.1.length ≤ max := by
    split at hl
    · cases hl; exact portsIn_le max _ _ _ (by simp)
    · exact portsBare_le max _ _ _ _ l (by simp) hl
  simp only [List.length_append, List.length_replicate]
  omega

example : ∃ r, parseInst false 4 2 0 (listInst sampleInst) = some r := ⟨_, list_read false 4 2 0 sampleInst sample_listable (by decide)⟩

/-! ## The type -/

/-- **C78, type (partial: the label is skipped as a whole)**: the dispatcher sees the type of an instance that is listed. -/
theorem type_found_partial (ci : Bool) (x : Inst) (h : Listable x) (hl : ArgLike x.label) (ho : Ordinary ci x.label) :
    (findType ci (listInst x)).1 = .type x.type := by
  set A : List Char := ' ' :: (x.type ++ (' ' :: x.args.flatMap argText)) with hA
  have e0 : listInst x = x.label ++ (' ' :: '(' :: (blanks x.ports ++ ')' :: A)) := by simp [listInst, portsText, hA]
  have hT : isTerm (' ' :: '(' :: (blanks x.ports ++ ')' :: A)) = true := by simp [isTerm]; decide
  have hsk : skipcom (' ' :: '(' :: (blanks x.ports ++ ')' :: A)) = '(' :: (blanks x.ports ++ ')' :: A) := by
    rw [skipcom_skipbl]
    · rw [skipbl_blank, skipbl_cons _ (by decide)]
    · rw [skipbl_blank, skipbl_cons _ (by decide)]; exact .inr ⟨'(', _, rfl, by decide, by decide⟩
  have hno : ')' ∉ '(' :: blanks x.ports := by
    have : ∀ l : List (List Char), (∀ w ∈ l, Plain w) → ')' ∉ blanks l := by
      intro l
      induction l with
      | nil => intro _ h; cases h
      | cons a l ih =>
        intro hl
        have h1 : ')' ∉ a := fun hm => by
          have := (hl a (by simp)).noTerm _ hm
          exact absurd this (by decide)
        cases l with
        | nil => exact h1
        | cons b l =>
          have h2 := ih (fun w hw => hl w (by simp [hw]))
          simp only [blanks, List.mem_append, List.mem_cons, not_or] at h2 ⊢
          exact ⟨h1, by decide, h2⟩
    simp only [List.mem_cons, not_or]
    exact ⟨by decide, this _ fun w hw => (h.ports w hw).1⟩
  have hs := scan_finds ci ')' sign_close A (('(' :: (blanks x.ports ++ ')' :: A)).length + 1) ('(' :: blanks x.ports) hno
    (by simp only [List.length_cons, List.length_append]; omega)
  rw [List.cons_append] at hs
  unfold findType
  rw [e0, (h.label.next _).skipbl, no_comment ci _ _ h.label hT ho, no_control ci _ _ h.label hT ho, skiparg_like _ _ hl hT, hsk]
  have hm : match1 ['('] ('(' :: (blanks x.ports ++ ')' :: A)) = true := by simp [match1]
  have hA' : skipcom A = x.type ++ (' ' :: x.args.flatMap argText) := by
    rw [skipcom_skipbl] <;> rw [hA, skipbl_blank, (h.type.next _).skipbl]
    exact h.type.next _
  simp only [Bool.false_eq_true, if_false, hm, if_true, hs, hA']
  rw [word_plain _ _ h.type (by simp [isTerm]; decide)]

theorem not_same_head (ci : Bool) (c d : Char) (w k : List Char) (h : eqc ci c d = false) : ¬ Same ci (c :: w) (d :: k) := by
  intro hs
  cases hs with
  | cons h1 _ => rw [h] at h1; cases h1

theorem sample_ordinary (ci : Bool) : Ordinary ci ['r', '1'] where
  noStar := by rintro ⟨t, ht⟩; simp at ht
  noSlash := by rintro ⟨t, ht⟩; simp at ht
  noWord := ⟨not_same_head _ _ _ _ _ (by cases ci <;> decide), not_same_head _ _ _ _ _ (by cases ci <;> decide),
    not_same_head _ _ _ _ _ (by cases ci <;> decide), not_same_head _ _ _ _ _ (by cases ci <;> decide)⟩

example : ArgLike sampleInst.label ∧ Ordinary false sampleInst.label := ⟨⟨sample_listable.label, by decide⟩, sample_ordinary false⟩

/-- **C78 fails for labels with other characters**: an instance without parameters, whose label has a bracket, say, is taken for one of
the type that the rest of its label spells. -/
theorem type_bracket (ci : Bool) (x : Inst) (h : Listable x) (ho : Ordinary ci x.label) (p q : List Char) (d : Char) (hx : x.label = p ++ d :: q)
    (hp : p ≠ []) (ht : ∀ c ∈ p.tail, isArg c = true) (hd : isArg d = false) (hq : Plain (d :: q)) (ha : x.args = [])
    (hno : '=' ∉ x.type) : (findType ci (listInst x)).1 = .type (d :: q) := by
  set A : List Char := ' ' :: (x.type ++ [' ']) with hA
  have e0 : listInst x = x.label ++ (' ' :: '(' :: (blanks x.ports ++ ')' :: A)) := by simp [listInst, portsText, hA, ha]
  have hT : isTerm (' ' :: '(' :: (blanks x.ports ++ ')' :: A)) = true := by simp [isTerm]; decide
  have noEq : ∀ w, Plain w → '=' ∉ w := fun w hw hm => by
    have := hw.noTerm _ hm
    exact absurd this (by decide)
  have hb : ∀ l : List (List Char), (∀ w ∈ l, Plain w) → '=' ∉ blanks l := by
    intro l
    induction l with
    | nil => intro _ h; cases h
    | cons a l ih =>
      intro hl
      cases l with
      | nil => exact noEq a (hl a (by simp))
      | cons b l =>
        have h2 := ih (fun w hw => hl w (by simp [hw]))
        simp only [blanks, List.mem_append, List.mem_cons, not_or] at h2 ⊢
        exact ⟨noEq a (hl a (by simp)), by decide, h2⟩
  have hall : '=' ∉ listInst x := by
    rw [e0]
    simp only [hA, List.mem_append, List.mem_cons, List.not_mem_nil, or_false, not_or]
    exact ⟨noEq _ h.label, by decide, by decide, hb _ fun w hw => (h.ports w hw).1, by decide, by decide, hno, by decide⟩
  have hsk : skiparg (listInst x) = d :: q ++ (' ' :: '(' :: (blanks x.ports ++ ')' :: A)) := by
    obtain ⟨c, p', rfl⟩ := List.exists_cons_of_ne_nil hp
    rw [e0, hx, List.append_assoc, List.cons_append]
    have hg : isGraph c = true := h.label.graph c (by rw [hx]; simp)
    have hc : c ≠ ',' := by
      rintro rfl
      have := h.label.noTerm ',' (by rw [hx]; simp)
      exact absurd this (by decide)
    rw [skiparg_word c p' _ hg hc ht (by intro y hy; simp at hy; subst hy; exact hd)]
    rw [← List.cons_append, (hq.next _).skipcom]
  have hm : match1 ['('] (d :: q ++ (' ' :: '(' :: (blanks x.ports ++ ')' :: A))) = false := match1_plain ['('] (d :: q) _ hq (by decide)
  unfold findType
  have hs : skipbl (listInst x) = x.label ++ (' ' :: '(' :: (blanks x.ports ++ ')' :: A)) := by rw [e0, (h.label.next _).skipbl]
  rw [hs, no_comment ci _ _ h.label hT ho, no_control ci _ _ h.label hT ho]
  simp only [Bool.false_eq_true, if_false, hsk, hm, scan_none ci '=' sign_eq _ _ hall]
  rw [word_plain _ _ hq hT]

/-- `r[1] (a b) res` is taken for a `[1]` -/
example : ∃ x : Inst, Listable x ∧ x.label = ['r'] ++ '[' :: ['1', ']'] ∧ isArg '[' = false ∧ Plain ('[' :: ['1', ']']) ∧ Ordinary false x.label ∧
    x.args = [] ∧ '=' ∉ x.type :=
  ⟨⟨['r', '[', '1', ']'], [['a'], ['b']], ['r', 'e', 's'], []⟩,
   ⟨plain_of _ (by decide), by
      intro w hw
      simp only [List.mem_cons, List.not_mem_nil, or_false] at hw
      rcases hw with rfl | rfl
      · exact nodeName _ (plain_of _ (by decide)) _ _ rfl (by decide)
      · exact nodeName _ (plain_of _ (by decide)) _ _ rfl (by decide), plain_of _ (by decide), by simp⟩,
   rfl, by decide, plain_of _ (by decide),
   ⟨by rintro ⟨t, ht⟩; simp at ht, by rintro ⟨t, ht⟩; simp at ht, not_same_head _ _ _ _ _ (by decide), not_same_head _ _ _ _ _ (by decide),
    not_same_head _ _ _ _ _ (by decide), not_same_head _ _ _ _ _ (by decide)⟩, rfl, by decide⟩

end Gnucap.Spectre
