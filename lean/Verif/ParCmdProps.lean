import Verif.ParCmdModel
import Verif.ParamWrong
import Verif.AnaCmdMore

/-!
# The command `param` (C99)

A line `a=1, b={2*a} c=b` sets each name to the value behind it.  The specification is `given`: the last value the line gives a name.
-/
set_option linter.unusedSimpArgs false
namespace Gnucap.ParCmd
open Gnucap.Scan Gnucap.Spice Gnucap.Num Gnucap.Param Gnucap.Expr
open Gnucap.AnaCmd (Param parse Brackets Inside parse_numeral parse_expression na_fails quotes num num_wf na_sound)

/-! ## Lines -/

/-- what may stand behind the equal sign: a number, an expression in quotes or braces, a word -/
inductive Value where
  | num (n : Numeral)
  | expr (o c : Char) (t : List Char)
  | word (t : List Char)

def Value.text : Value → List Char
  | .num n => n.text
  | .expr o c t => o :: (t ++ [c])
  | .word t => t

/-- A word is not a number, does not begin with `NA` and is not the mark of a fixed parameter. -/
def Value.Good (ci : Bool) : Value → Prop
  | .num n => n.Wf
  | .expr o c t => Brackets o c ∧ Inside o c t ∧ t ≠ ['#']
  | .word t => Plain t ∧ (∀ c, t.head? = some c → isFloat c = false) ∧ ¬ Starts ci ['N', 'A'] t ∧ t ≠ ['#']

/-- what the parameter is: a number, or a text to be evaluated when it is used -/
def Value.means (u : Units) (ty : Ty) : Value → Gnucap.Param.Inst
  | .num n => ⟨ty, ['#'], some (if ty = .vreal then .vreal (n.value u) else .flt (n.value u))⟩
  | .expr _ _ t => ⟨ty, t, none⟩
  | .word t => ⟨ty, t, none⟩

/-- a name and its value -/
structure Item where
  name : List Char
  val : Value

/-- letters or an underscore in front, and nothing that ends a word -/
structure Named (w : List Char) : Prop where
  plain : Plain w
  head : ∀ c, w.head? = some c → isAlpha c = true ∨ c = '_'

/-- items with what stands behind each -/
def text : List (Item × Gap) → List Char
  | [] => []
  | (i, g) :: l => i.name ++ '=' :: (i.val.text ++ (g.text ++ text l))

/-- between two items is a blank or a comma at least -/
def Line (ci : Bool) : List (Item × Gap) → Prop
  | [] => True
  | (i, g) :: l => Named i.name ∧ i.val.Good ci ∧ g.ok ∧ (l ≠ [] → g.text ≠ []) ∧ Line ci l

/-- the last value the line gives the name `x` -/
def given (ci : Bool) (x : List Char) (l : List (Item × Gap)) : Option Value :=
  (l.reverse.find? fun p => fold ci p.1.name == fold ci x).map fun p => p.1.val

/-- the line does not begin with the name of a type -/
def NoType (ci : Bool) (w : List Char) : Prop :=
  ¬ Starts ci ['r', 'e', 'a', 'l'] w ∧ ¬ Starts ci ['i', 'n', 't', 'e', 'g', 'e', 'r'] w ∧ ¬ Starts ci ['s', 't', 'r', 'i', 'n', 'g'] w

def realTy (o : Opts) : Ty := if o.verilog then .vreal else .flt

/-! ## Reading -/

theorem Named.cons {w : List Char} (h : Named w) : ∃ c r, w = c :: r ∧ isGraph c = true ∧ c ≠ ',' ∧ c ≠ '(' ∧ c ≠ '=' ∧ (isAlpha c || c == '_') = true := by
  obtain ⟨c, r, rfl⟩ := List.exists_cons_of_ne_nil h.plain.ne
  have ht := h.plain.noTerm c (by simp)
  refine ⟨c, r, rfl, h.plain.graph c (by simp), ?_, ?_, ?_, ?_⟩
  · rintro rfl; exact absurd ht (by decide)
  · rintro rfl; exact absurd ht (by decide)
  · rintro rfl; exact absurd ht (by decide)
  · rcases h.head c rfl with h | h <;> simp [h]

theorem Named.next {w : List Char} (h : Named w) (s : List Char) : Next (w ++ s) := by
  obtain ⟨c, r, rfl, h1, h2, -⟩ := h.cons
  exact .inr ⟨c, r ++ s, rfl, h1, h2⟩

theorem text_next {ci : Bool} {l : List (Item × Gap)} (h : Line ci l) : Next (text l) ∧ match1 ['('] (text l) = false := by
  cases l with
  | nil => exact ⟨.inl rfl, rfl⟩
  | cons p l =>
    obtain ⟨i, g⟩ := p
    obtain ⟨c, r, e, h1, h2, h3, -⟩ := h.1.cons
    refine ⟨h.1.next _, ?_⟩
    simp [text, e, match1, h3]

/-- what stands behind a value ends it -/
theorem gap_head {g : Gap} (hg : g.ok) {s : List Char} (hs : s ≠ [] → g.text ≠ []) (c : Char) (hc : (g.text ++ s).head? = some c) : isSpace c = true ∨ c = ',' := by
  by_cases he : g.text = []
  · have : s = [] := by by_contra h; exact hs h he
    rw [he, this] at hc
    cases hc
  · obtain ⟨b, cm, a⟩ := g
    obtain ⟨h1, h2⟩ := hg
    simp only [Gap.text] at he hc h1 h2
    cases b with
    | cons d b =>
      simp only [List.cons_append, List.head?_cons, Option.some.injEq] at hc
      exact .inl (hc ▸ h1 d (by simp))
    | nil =>
      cases cm with
      | true => simp at hc; exact .inr hc.symm
      | false =>
        cases a with
        | nil => simp at he
        | cons d a => simp at hc; exact .inl (hc ▸ h2 d (by simp))

theorem space_stops {c : Char} (h : (isSpace c = true ∨ c = ',') ∨ c = ')') : isDigit c = false ∧ isAlpha c = false ∧ c ≠ '.' ∧ c ≠ '%' := by
  rcases h with (h | rfl) | rfl
  · simp only [isSpace, Bool.or_eq_true, Bool.and_eq_true, decide_eq_true_eq, beq_iff_eq] at h
    have hc : c = Char.ofNat c.toNat := by simp
    obtain ⟨k, hk⟩ : ∃ k, c.toNat = k := ⟨_, rfl⟩
    rw [hk] at h hc
    subst hc
    rcases h with rfl | ⟨h1, h2⟩
    · decide
    · interval_cases k <;> decide
  all_goals decide

theorem rest_term {s : List Char} (h : ∀ c, s.head? = some c → (isSpace c = true ∨ c = ',') ∨ c = ')') : isTerm s = true := by
  cases s with
  | nil => rfl
  | cons c r =>
    rcases h c rfl with (h | rfl) | rfl
    · simp [isTerm, isTermChar, h]
    all_goals rfl

/-- a word is read as it stands -/
theorem parse_text (u : Units) (ci : Bool) (old : Param) (t rest : List Char) (hw : Plain t) (hf : ∀ c, t.head? = some c → isFloat c = false)
    (hn : ¬ Starts ci ['N', 'A'] t) (hr : ∀ c, rest.head? = some c → (isSpace c = true ∨ c = ',') ∨ c = ')') (hp : match1 ['('] (skipcom rest) = false) :
    parse u ci old (t ++ rest) = some (.text t, skipcom rest) := by
  obtain ⟨c, w, rfl⟩ := List.exists_cons_of_ne_nil hw.ne
  have hg := hw.graph c (by simp)
  have hcom : c ≠ ',' := by
    rintro rfl
    exact absurd (hw.noTerm ',' (by simp)) (by decide)
  have hnx : Next (c :: w ++ rest) := .inr ⟨c, _, rfl, hg, hcom⟩
  have h1 : ctof u (c :: w ++ rest) = .none (c :: w ++ rest) := by
    have e1 : skipbl (c :: w ++ rest) = c :: w ++ rest := skipbl_cons _ hg
    rw [ctof_not_number u _ (by rw [e1]; intro d hd; cases hd; exact hf c rfl), e1, hnx.skipcom]
  have h2 : ctos [',', '=', '(', ')', ';'] quotes (c :: w ++ rest) = (c :: w, skipcom rest) := by
    refine ctos_plain _ _ _ _ hw.ne hw.graph ?_ ?_ ?_
    · intro d hd
      have := hw.noTerm d hd
      rw [← stops_word] at this
      unfold stops at this
      have := (Bool.or_eq_false_iff.mp this).2
      simp only [List.contains_cons, List.contains_nil, Bool.or_false, Bool.or_eq_false_iff] at this ⊢
      tauto
    · intro d hd
      have h1 : d ≠ '"' := fun e => hw.noQuote.1 (by rw [hd, e])
      have h2 : d ≠ '\'' := fun e => hw.noQuote.2 (by rw [hd, e])
      have h3 : d ≠ '{' := by
        intro e
        have := hw.noTerm d (List.mem_of_mem_head? hd)
        rw [e] at this
        cases this
      simp [quotes, List.lookup, beq_false_of_ne h1, beq_false_of_ne h2, beq_false_of_ne h3]
    · intro d hd
      rcases hr d hd with (h | rfl) | rfl
      · simp [stops, h]
      all_goals rfl
  have h3 : umatch ci ['N', 'A'] (c :: w ++ rest) = .fail := umatch_lits_fail ci _ _ _ (by decide) (by decide) (rest_term hr) hnx hn
  have hna : c :: w ≠ ['N', 'A'] := by
    intro e
    refine hn ⟨['N', 'A'], [], by simp [e], ?_⟩
    unfold Same
    refine .cons ?_ (.cons ?_ .nil) <;> simp [eqc]
  unfold AnaCmd.parse
  rw [h3, h1]
  simp only [h2, if_neg hw.ne, hp, Bool.false_eq_true, if_false, if_neg hna]

/-- every value is read as what it means -/
theorem parse_value (o : Opts) (old : Param) (v : Value) (hv : v.Good o.ci) (rest : List Char) (hr : ∀ c, rest.head? = some c → (isSpace c = true ∨ c = ',') ∨ c = ')')
    (hp : match1 ['('] (skipcom rest) = false) :
    ∃ p, parse o.units o.ci old (v.text ++ rest) = some (p, skipcom rest) ∧ ∀ ty, inst ty p = v.means o.units ty := by
  cases v with
  | num n => exact ⟨_, parse_numeral _ _ _ n hv _ fun c hc => space_stops (hr c hc), fun ty => rfl⟩
  | expr a b t =>
    refine ⟨.text t, ?_, fun ty => rfl⟩
    have := parse_expression o.units o.ci old hv.1 hv.2.1 rest hp
    simpa [Value.text] using this
  | word t => exact ⟨.text t, parse_text _ _ _ t rest hv.1 hv.2.1 hv.2.2.1 hr hp, fun ty => rfl⟩

theorem value_head (ci : Bool) (v : Value) (hv : v.Good ci) (s : List Char) : ∃ c r, v.text ++ s = c :: r ∧ isGraph c = true ∧ c ≠ ',' := by
  cases v with
  | num n =>
    obtain ⟨c, r, e, -, h1, h2, -⟩ := AnaCmd.numeral_head n hv s
    exact ⟨c, r, e, h1, h2⟩
  | expr a b t =>
    refine ⟨a, t ++ [b] ++ s, by simp [Value.text], ?_⟩
    rcases hv.1 with ⟨rfl, -⟩ | ⟨rfl, -⟩ | ⟨rfl, -⟩ <;> decide
  | word t =>
    obtain ⟨c, w, e⟩ := List.exists_cons_of_ne_nil hv.1.ne
    refine ⟨c, w ++ s, by simp [Value.text, e], hv.1.graph c (by simp [e]), ?_⟩
    rintro rfl
    exact absurd (hv.1.noTerm ',' (by simp [e])) (by decide)

/-- one round -/
theorem round_item (o : Opts) (ty : Ty) (n : ℕ) (par : Param) (here : ℕ) (f : Frame) (i : Item) (hi : Named i.name) (hv : i.val.Good o.ci) (rest : List Char)
    (hr : ∀ c, rest.head? = some c → isSpace c = true ∨ c = ',') (hp : match1 ['('] (skipcom rest) = false)
    (hh : (i.name ++ '=' :: (i.val.text ++ rest)).length ≤ here) (hl : (skipcom rest).length ≤ rest.length) :
    ∃ p, pairs o ty (n + 1) par here f (i.name ++ '=' :: (i.val.text ++ rest)) =
      pairs o ty n p (skipcom rest).length (f.put (fold o.ci i.name) (i.val.means o.units ty)) (skipcom rest) ∧ ∀ ty, inst ty p = i.val.means o.units ty := by
  obtain ⟨c, r, e, h1, h2, -, -, h3⟩ := hi.cons
  obtain ⟨p, hpp, hm⟩ := parse_value o par i.val hv rest (fun c hc => .inl (hr c hc)) hp
  obtain ⟨d, q, eq, hd1, hd2⟩ := value_head o.ci i.val hv rest
  have hs : skipbl (i.name ++ '=' :: (i.val.text ++ rest)) = i.name ++ '=' :: (i.val.text ++ rest) := (hi.next _).skipbl
  have hw : word (i.name ++ '=' :: (i.val.text ++ rest)) = (i.name, '=' :: (i.val.text ++ rest)) := by
    rw [word_plain _ _ hi.plain rfl, (show Next ('=' :: (i.val.text ++ rest)) from .inr ⟨_, _, rfl, by decide, by decide⟩).skipcom]
  have hk : skip1b ['='] ('=' :: (i.val.text ++ rest)) = (true, i.val.text ++ rest) := by
    unfold Spice.skip1b
    rw [skipbl_cons _ (by decide)]
    simp only [match1, List.contains_cons, BEq.rfl, Bool.true_or, if_true, List.tail_cons]
    rw [eq, skipbl_cons _ hd1]
  refine ⟨p, ?_, hm⟩
  have hnh : nameHead (i.name ++ '=' :: (i.val.text ++ rest)) = true := by rw [e]; simpa [nameHead] using h3
  have hlt : (skipcom rest).length < here := by
    simp only [List.length_append, List.length_cons] at hh
    omega
  rw [pairs, hs, if_pos hnh]
  simp only [hw, hk, hpp, hm, if_pos hlt]

theorem skipcom_len (s : List Char) : (skipcom s).length ≤ s.length := Opt.skipcom_len s

/-- the parameters after the items -/
def puts (o : Opts) (ty : Ty) (f : Frame) (l : List (Item × Gap)) : Frame :=
  l.foldl (fun f p => f.put (fold o.ci p.1.name) (p.1.val.means o.units ty)) f

theorem pairs_text (o : Opts) (ty : Ty) : ∀ (l : List (Item × Gap)), Line o.ci l → ∀ (n : ℕ) (par : Param) (here : ℕ) (f : Frame), (text l).length < n →
    (text l).length ≤ here → pairs o ty n par here f (text l) = .done (puts o ty f l) []
  | [], _, n, par, here, f, hn, _ => by
    obtain ⟨n, rfl⟩ : ∃ m, n = m + 1 := ⟨n - 1, by simp [text] at hn; omega⟩
    rfl
  | (i, g) :: l, h, n, par, here, f, hn, hh => by
    obtain ⟨h1, h2, h3, h4, h5⟩ := h
    obtain ⟨n, rfl⟩ : ∃ m, n = m + 1 := ⟨n - 1, by omega⟩
    have hx := text_next h5
    have hsk : skipcom (g.text ++ text l) = text l := skipcom_gap g h3 _ hx.1
    have hne : text l ≠ [] → g.text ≠ [] := fun e => h4 (by rintro rfl; exact e rfl)
    obtain ⟨p, hp, -⟩ := round_item o ty n par here f i h1 h2 (g.text ++ text l) (gap_head h3 hne) (by rw [hsk]; exact hx.2) hh
      (skipcom_len _)
    rw [text, hp, hsk]
    have hlen : (text l).length < (text ((i, g) :: l)).length := by simp only [text, List.length_append, List.length_cons]; omega
    exact pairs_text o ty l h5 n p _ _ (by omega) le_rfl

/-- what is found after the items is what was given last -/
theorem puts_find (o : Opts) (ty : Ty) (x : List Char) : ∀ (l : List (Item × Gap)) (f : Frame),
    (puts o ty f l).find (fold o.ci x) = match given o.ci x l with
      | some v => some (v.means o.units ty)
      | none => f.find (fold o.ci x) := by
  intro l
  induction l using List.reverseRecOn with
  | nil => intro f; rfl
  | append_singleton l p ih =>
    intro f
    have hg : given o.ci x (l ++ [p]) = if fold o.ci p.1.name == fold o.ci x then some p.1.val else given o.ci x l := by
      unfold given
      rw [List.reverse_append, List.reverse_singleton, List.singleton_append, List.find?_cons]
      cases fold o.ci p.1.name == fold o.ci x <;> rfl
    have hp : puts o ty f (l ++ [p]) = (puts o ty f l).put (fold o.ci p.1.name) (p.1.val.means o.units ty) := by
      simp [puts, List.foldl_append]
    rw [hp, find_put, hg]
    by_cases he : fold o.ci p.1.name = fold o.ci x
    · simp [he]
    · rw [if_neg (fun e => he e.symm), ih f]
      simp [he]

theorem starts_fails (ci : Bool) (p w rest : List Char) (hp : ∀ c ∈ p, special c = false) (ht : ∀ c ∈ p, isTermChar c = false) (hw : Named w)
    (h : ¬ Starts ci p w) : umatch ci p (w ++ '=' :: rest) = .fail :=
  umatch_lits_fail ci p w _ hp ht rfl (hw.next _) h

/-- **C99**: a line of names and values sets each name it gives to the last value given, leaves the others, and is read to its end. -/
theorem param_sets (o : Opts) (f : Frame) (i : Item) (g : Gap) (l : List (Item × Gap)) (h : Line o.ci ((i, g) :: l)) (ht : NoType o.ci i.name) :
    ∃ f', command o f (text ((i, g) :: l)) = .done f' [] ∧ ∀ x, f'.find (fold o.ci x) =
      match given o.ci x ((i, g) :: l) with
      | some v => some (v.means o.units (realTy o))
      | none => f.find (fold o.ci x) := by
  refine ⟨puts o (realTy o) f ((i, g) :: l), ?_, fun x => puts_find o _ x _ f⟩
  have hne : skipbl (text ((i, g) :: l)) ≠ [] := by
    rw [(text_next h).1.skipbl]
    simp [text]
  unfold command
  rw [if_neg hne]
  simp only
  have hx : text ((i, g) :: l) = i.name ++ '=' :: (i.val.text ++ (g.text ++ text l)) := rfl
  rw [hx, starts_fails o.ci _ _ _ (by decide) (by decide) h.1 ht.1]
  simp only
  rw [starts_fails o.ci _ _ _ (by decide) (by decide) h.1 ht.2.1]
  simp only
  rw [starts_fails o.ci _ _ _ (by decide) (by decide) h.1 ht.2.2]
  simp only
  rw [← hx]
  exact pairs_text o _ _ h _ _ _ _ (by omega) le_rfl

/-- a word in front that is matched without looking at what follows -/
theorem lits_hit (ci : Bool) (p m s : List Char) (hp : ∀ c ∈ p, special c = false) (hm : Same ci m p) (hg : Next (m ++ s)) :
    umatch ci p (m ++ s) = .ok (skipcom s) := by
  have e : p = segText (p.map .lit ++ []) := by rw [Spice.segText_lits]; simp [segText]
  have hwf : ∀ s ∈ p.map Seg.lit ++ [], s.wf = true := by
    intro s hs
    rw [List.append_nil] at hs
    obtain ⟨c, hc, rfl⟩ := List.mem_map.mp hs
    simp [Seg.wf, hp c hc]
  have h : segMatch ci (p.map Seg.lit ++ []) (m ++ s) = some s := (segMatch_lits ci p [] _ s).mpr ⟨m, s, rfl, hm, rfl⟩
  rw [e, umatch_single ci _ hwf, hg.skipbl, h]

/-- `real` in front of a line, written as one word with it or not -/
theorem real_line (o : Opts) (f : Frame) (m : List Char) (hm : Same o.ci m ['r', 'e', 'a', 'l']) (g : Gap) (hg : g.ok) (i : Item) (g' : Gap) (l : List (Item × Gap))
    (h : Line o.ci ((i, g') :: l)) (hn : Next (m ++ (g.text ++ text ((i, g') :: l)))) :
    command o f (m ++ (g.text ++ text ((i, g') :: l))) = .done (puts o (realTy o) f ((i, g') :: l)) [] := by
  have hne : m ++ (g.text ++ text ((i, g') :: l)) ≠ [] := by simp [text]
  unfold command
  rw [hn.skipbl, if_neg hne]
  simp only
  rw [lits_hit o.ci _ m _ (by decide) hm hn, skipcom_gap g hg _ (text_next h).1]
  exact pairs_text o _ _ h _ _ _ _ (by omega) le_rfl

/-- **C99**: with `real` in front the same -/
theorem param_real (o : Opts) (f : Frame) (g : Gap) (hg : g.ok) (i : Item) (g' : Gap) (l : List (Item × Gap)) (h : Line o.ci ((i, g') :: l)) :
    ∃ f', command o f (['r', 'e', 'a', 'l'] ++ (g.text ++ text ((i, g') :: l))) = .done f' [] ∧ ∀ x, f'.find (fold o.ci x) =
      match given o.ci x ((i, g') :: l) with
      | some v => some (v.means o.units (realTy o))
      | none => f.find (fold o.ci x) :=
  ⟨_, real_line o f _ (by unfold Same; refine .cons ?_ (.cons ?_ (.cons ?_ (.cons ?_ .nil))) <;> simp [eqc]) g hg i g' l h
    (.inr ⟨'r', _, rfl, by decide, by decide⟩), fun x => puts_find o _ x _ f⟩

/-- **C99, a defect**: a name that begins with `real` loses its front: `realvalue=1` sets `value`. -/
theorem type_prefix_wrong (o : Opts) (f : Frame) (w : List Char) (hw : Named w) (v : Value) (hv : v.Good o.ci) :
    Named (['r', 'e', 'a', 'l'] ++ w) ∧
    ∃ f', command o f (text [(⟨['r', 'e', 'a', 'l'] ++ w, v⟩, ⟨[], false, []⟩)]) = .done f' [] ∧
      f'.find (fold o.ci w) = some (v.means o.units (realTy o)) ∧
      f'.find (fold o.ci (['r', 'e', 'a', 'l'] ++ w)) = f.find (fold o.ci (['r', 'e', 'a', 'l'] ++ w)) := by
  have hl : Line o.ci [(⟨w, v⟩, ⟨[], false, []⟩)] := ⟨hw, hv, ⟨by simp, by simp⟩, by simp, trivial⟩
  have hr := real_line o f ['r', 'e', 'a', 'l'] (by unfold Same; refine .cons ?_ (.cons ?_ (.cons ?_ (.cons ?_ .nil))) <;> simp [eqc]) ⟨[], false, []⟩
    ⟨by simp, by simp⟩ _ _ [] hl (.inr ⟨'r', _, rfl, by decide, by decide⟩)
  refine ⟨⟨⟨by simp, ?_, ?_, by simp⟩, ?_⟩, puts o (realTy o) f [(⟨w, v⟩, ⟨[], false, []⟩)], ?_, ?_, ?_⟩
  · intro c hc
    rcases List.mem_append.mp hc with hc | hc
    · clear * - hc; revert c; decide
    · exact hw.plain.graph c hc
  · intro c hc
    rcases List.mem_append.mp hc with hc | hc
    · clear * - hc; revert c; decide
    · exact hw.plain.noTerm c hc
  · intro c hc
    simp at hc
    left; rw [← hc]; decide
  · have e : text [(⟨['r', 'e', 'a', 'l'] ++ w, v⟩, ⟨[], false, []⟩)] = ['r', 'e', 'a', 'l'] ++ (Gap.text ⟨[], false, []⟩ ++ text [(⟨w, v⟩, ⟨[], false, []⟩)]) := by
      simp [text, Gap.text]
    rw [e]
    exact hr
  · simp [puts, find_put]
  · have hne : fold o.ci (['r', 'e', 'a', 'l'] ++ w) ≠ fold o.ci w := by
      intro e
      have := congrArg List.length e
      cases hc : o.ci <;> simp [fold, hc] at this <;> omega
    simp only [puts, List.foldl_cons, List.foldl_nil, find_put, if_neg hne]

/-- lines that do not begin with a type are read as they are -/
theorem command_lines (o : Opts) (f : Frame) (w rest : List Char) (hw : Named w) (ht : NoType o.ci w) :
    command o f (w ++ '=' :: rest) = lines o (realTy o) f (w ++ '=' :: rest) := by
  have hne : w ++ '=' :: rest ≠ [] := by simp
  unfold command
  rw [(hw.next _).skipbl, if_neg hne]
  simp only
  rw [starts_fails o.ci _ _ _ (by decide) (by decide) hw ht.1]
  simp only
  rw [starts_fails o.ci _ _ _ (by decide) (by decide) hw ht.2.1]
  simp only
  rw [starts_fails o.ci _ _ _ (by decide) (by decide) hw ht.2.2]
  rfl

/-- nothing is read where there is nothing -/
theorem parse_end (u : Units) (ci : Bool) (old : Param) : AnaCmd.parse u ci old [] = some (old, []) := by
  have h : umatch ci ['N', 'A'] [] = .fail := Opt.umatch_blank _ _ _ na_sound rfl
  unfold AnaCmd.parse
  rw [h]
  rfl

/-- a name alone at the end -/
theorem round_alone (o : Opts) (ty : Ty) (n : ℕ) (par : Param) (here : ℕ) (f : Frame) (w : List Char) (hw : Named w) (hh : w.length ≤ here) :
    pairs o ty (n + 2) par here f w = .done (f.put (fold o.ci w) (inst ty par)) [] := by
  obtain ⟨c, r, e, h1, h2, -, -, h3⟩ := hw.cons
  have hs : skipbl w = w := by have := (hw.next []).skipbl; simpa using this
  have hwd : word w = (w, []) := by
    have := word_plain w [] hw.plain rfl
    simpa [skipcom, skipbl] using this
  have hnh : nameHead w = true := by rw [e]; simpa [nameHead] using h3
  have hpos : 0 < here := by rw [e] at hh; simp at hh; omega
  rw [pairs, hs, if_pos hnh]
  have hsk : (Spice.skip1b ['='] []).2 = [] := rfl
  simp only [hwd, hsk, parse_end, List.length_nil, if_pos hpos]
  rfl

/-- **C99, a defect**: a name without a value gets the value of the name before: `a=5 b` sets `b` to 5. -/
theorem missing_value_wrong (o : Opts) (f : Frame) (i : Item) (hi : Named i.name) (hv : i.val.Good o.ci) (ht : NoType o.ci i.name) (g : Gap) (hg : g.ok)
    (hgn : g.text ≠ []) (w : List Char) (hw : Named w) :
    ∃ f', command o f (i.name ++ '=' :: (i.val.text ++ (g.text ++ w))) = .done f' [] ∧ f'.find (fold o.ci w) = some (i.val.means o.units (realTy o)) := by
  have hnx : Next w := by have := hw.next []; simpa using this
  have hsk : skipcom (g.text ++ w) = w := skipcom_gap g hg _ hnx
  have hmp : match1 ['('] w = false := by
    obtain ⟨c, r, e, -, -, h, -⟩ := hw.cons
    simp [e, match1, h]
  rw [command_lines o f _ _ hi ht]
  unfold lines
  obtain ⟨n, hn⟩ : ∃ n, (i.name ++ '=' :: (i.val.text ++ (g.text ++ w))).length = n + 2 := by
    obtain ⟨c, r, e, -⟩ := hi.cons
    refine ⟨(i.name ++ '=' :: (i.val.text ++ (g.text ++ w))).length - 2, ?_⟩
    rw [e]
    simp only [List.length_append, List.length_cons]
    omega
  obtain ⟨p, hp, hm⟩ := round_item o (realTy o) (n + 2) .unset _ f i hi hv (g.text ++ w) (gap_head hg fun _ => hgn) (by rw [hsk]; exact hmp)
    le_rfl (skipcom_len _)
  rw [hsk] at hp
  rw [hn] at hp ⊢
  rw [hp, round_alone o _ n p _ _ w hw le_rfl, hm]
  exact ⟨_, rfl, by simp [find_put]⟩

/-- **C99, a defect**: a value that begins with `NA` is taken for no value, and what follows for a name: `a=NAB` sets neither to `NAB`. -/
theorem na_prefix_wrong (o : Opts) (f : Frame) (x : List Char) (hx : Named x) (ht : NoType o.ci x) (w : List Char) (hw : Named w) :
    ∃ f', command o f (x ++ '=' :: 'N' :: 'A' :: w) = .done f' [] ∧ f'.find (fold o.ci w) = some ⟨realTy o, ['#'], none⟩ ∧
      f'.find (fold o.ci x) = some ⟨realTy o, ['#'], none⟩ := by
  obtain ⟨c, r, e, h1, h2, -, -, h3⟩ := hx.cons
  have hnx : Next w := by have := hw.next []; simpa using this
  have hna : umatch o.ci ['N', 'A'] ('N' :: 'A' :: w) = .ok w := by
    have := lits_hit o.ci ['N', 'A'] ['N', 'A'] w (by decide) (by unfold Same; refine .cons ?_ (.cons ?_ .nil) <;> simp [eqc])
      (.inr ⟨'N', _, rfl, by decide, by decide⟩)
    rwa [hnx.skipcom] at this
  have hp : ∀ old, AnaCmd.parse o.units o.ci old ('N' :: 'A' :: w) = some (.na, w) := by
    intro old
    unfold AnaCmd.parse
    rw [hna]
  rw [command_lines o f _ _ hx ht]
  unfold lines
  have hlen : (x ++ '=' :: 'N' :: 'A' :: w).length = (r.length + w.length) + 4 := by
    rw [e]
    simp only [List.length_append, List.length_cons]
    omega
  have hs : skipbl (x ++ '=' :: 'N' :: 'A' :: w) = x ++ '=' :: 'N' :: 'A' :: w := (hx.next _).skipbl
  have hwd : word (x ++ '=' :: 'N' :: 'A' :: w) = (x, '=' :: 'N' :: 'A' :: w) := by
    rw [word_plain _ _ hx.plain rfl, (show Next ('=' :: 'N' :: 'A' :: w) from .inr ⟨_, _, rfl, by decide, by decide⟩).skipcom]
  have hk : Spice.skip1b ['='] ('=' :: 'N' :: 'A' :: w) = (true, 'N' :: 'A' :: w) := by
    unfold Spice.skip1b
    rw [skipbl_cons _ (by decide)]
    simp only [match1, List.contains_cons, BEq.rfl, Bool.true_or, if_true, List.tail_cons]
    rw [skipbl_cons _ (by decide)]
  have hnh : nameHead (x ++ '=' :: 'N' :: 'A' :: w) = true := by rw [e]; simpa [nameHead] using h3
  rw [hlen, pairs, hs, if_pos hnh]
  simp only [hwd, hk, hp, if_pos (show w.length < r.length + w.length + 4 by omega)]
  rw [round_alone o _ (r.length + w.length + 2) .na _ _ w hw le_rfl]
  refine ⟨_, rfl, by simp [find_put, inst], ?_⟩
  rw [find_put]
  split
  · rfl
  · simp [find_put, inst]

/-- the loop ends -/
theorem pairs_end (o : Opts) (ty : Ty) : ∀ (n : ℕ) (par : Param) (here : ℕ) (f : Frame) (s : List Char), here < n → pairs o ty n par here f s ≠ .running
  | 0, _, _, _, _, h => by omega
  | n + 1, par, here, f, s, h => by
    rw [pairs]
    split
    · simp only
      split
      · simp
      · split
        · exact pairs_end o ty n _ _ _ _ (by omega)
        · simp
    · simp

/-- **C99**: the command ends, whatever the line. -/
theorem command_ends (o : Opts) (f : Frame) (s : List Char) : command o f s ≠ .running := by
  unfold command lines
  split
  · simp
  · simp only
    split
    · exact pairs_end o _ _ _ _ _ _ (by omega)
    · simp
    · split
      · simp
      · simp
      · split
        · simp
        · simp
        · exact pairs_end o _ _ _ _ _ _ (by omega)

/-- **C99**: what a name is after the line, from any scope inside: a number is that number at once. -/
theorem param_number (E : Env) (u : Units) (f : Frame) (rest : Chain) (i : Item) (g : Gap) (l : List (Item × Gap)) (h : Line E.ci ((i, g) :: l)) (ht : NoType E.ci i.name)
    (x : List Char) (n : Numeral) (hx : given E.ci x ((i, g) :: l) = some (.num n)) (k : ℕ) (d : Option Base.Val) :
    ∃ f', command ⟨u, E.ci, E.verilog⟩ f (text ((i, g) :: l)) = .done f' [] ∧ ∃ j, deepLookup E.ci (f' :: rest) x = some j ∧
      eVal E (f' :: rest) (k + 1) j d = (k + 1, .val (if E.verilog then .vreal (n.value u) else .flt (n.value u))) := by
  obtain ⟨f', h1, h2⟩ := param_sets ⟨u, E.ci, E.verilog⟩ f i g l h ht
  refine ⟨f', h1, _, ?_, eVal_fixed E _ k ((Value.num n).means u (realTy ⟨u, E.ci, E.verilog⟩)) d _ rfl ?_⟩
  · have := h2 x
    simp only [hx] at this
    simp [deepLookup, this, Value.means, Inst.hard]
  · simp only [Value.means, realTy]
    cases E.verilog <;> rfl

/-- **C99**: a text is evaluated where it is used, with the parameters of that place. -/
theorem param_expression (E : Env) (u : Units) (f : Frame) (rest : Chain) (i : Item) (g : Gap) (l : List (Item × Gap)) (h : Line E.ci ((i, g) :: l))
    (ht : NoType E.ci i.name) (x : List Char) (a b : Char) (t : List Char) (hx : given E.ci x ((i, g) :: l) = some (.expr a b t)) (hne : t ≠ []) (hm : t ≠ ['#'])
    (e : Ex) (r : List Char) (n : ℕ) (w v : Base.Val) (hp : Expr.parse E.ci t = .ok (rpn e, r)) (hn : n < E.levels) (ha : assign (realTy ⟨u, E.ci, E.verilog⟩) w = .val v)
    (k : ℕ) (d : Option Base.Val) :
    ∃ f', command ⟨u, E.ci, E.verilog⟩ f (text ((i, g) :: l)) = .done f' [] ∧ ∃ j, deepLookup E.ci (f' :: rest) x = some j ∧
      (Den (ctx E (f' :: rest)) n e w → eVal E (f' :: rest) (k + 1) j d = (k + 1, .val v)) := by
  obtain ⟨f', h1, h2⟩ := param_sets ⟨u, E.ci, E.verilog⟩ f i g l h ht
  refine ⟨f', h1, (Value.expr a b t).means u (realTy ⟨u, E.ci, E.verilog⟩), ?_, fun hd => eVal_text E _ k _ d e r n w v hne hm hp hd hn ha⟩
  have := h2 x
  simp only [hx] at this
  simp [deepLookup, this, Value.means, Inst.hard, hne]

/-- **C99**: names that the line does not give are what they were. -/
theorem param_others (E : Env) (u : Units) (f : Frame) (rest : Chain) (i : Item) (g : Gap) (l : List (Item × Gap)) (h : Line E.ci ((i, g) :: l)) (ht : NoType E.ci i.name)
    (x : List Char) (hx : ∀ p ∈ (i, g) :: l, fold E.ci p.1.name ≠ fold E.ci x) :
    ∃ f', command ⟨u, E.ci, E.verilog⟩ f (text ((i, g) :: l)) = .done f' [] ∧ deepLookup E.ci (f' :: rest) x = deepLookup E.ci (f :: rest) x := by
  obtain ⟨f', h1, h2⟩ := param_sets ⟨u, E.ci, E.verilog⟩ f i g l h ht
  refine ⟨f', h1, ?_⟩
  have hg : given E.ci x ((i, g) :: l) = none := by
    unfold given
    rw [Option.map_eq_none_iff, List.find?_eq_none]
    intro p hp
    simpa using hx p (by simpa [or_comm] using hp)
  have := h2 x
  simp only [hg] at this
  simp [deepLookup, this]

/-! ## Examples -/

theorem named_of {w : List Char} (h : (!w.isEmpty && w.all (fun c => isGraph c && !isTermChar c) && w.head?.any (fun c => isAlpha c || c == '_')) = true) : Named w := by
  simp only [Bool.and_eq_true, List.all_eq_true, Bool.not_eq_true', List.isEmpty_eq_false_iff] at h
  obtain ⟨⟨h1, h2⟩, h3⟩ := h
  obtain ⟨c, r, rfl⟩ := List.exists_cons_of_ne_nil h1
  simp only [List.head?_cons, Option.any_some, Bool.or_eq_true, beq_iff_eq] at h3
  refine ⟨⟨h1, fun d hd => (h2 d hd).1, fun d hd => (h2 d hd).2, ?_⟩, ?_⟩
  · simp only [List.head?_cons, ne_eq, Option.some.injEq]
    constructor <;> rintro rfl <;> rcases h3 with h3 | h3 <;> revert h3 <;> decide
  · intro d hd
    cases hd
    exact h3

def demoOpts : Opts := ⟨.si, true, false⟩

def blank : Gap := ⟨[' '], false, []⟩
def comma : Gap := ⟨[], true, [' ']⟩
def nothing : Gap := ⟨[], false, []⟩

/-- `a=5, b={2*a} A=7` -/
def demo : List (Item × Gap) := [(⟨['a'], .num (num [5])⟩, comma), (⟨['b'], .expr '{' '}' ['2', '*', 'a']⟩, blank), (⟨['A'], .num (num [7])⟩, nothing)]

theorem demo_line : Line true demo :=
  ⟨named_of (by decide), num_wf _ (by decide) (by decide), ⟨by decide, by decide⟩, by decide, named_of (by decide),
    ⟨.inr (.inl ⟨rfl, rfl⟩), ⟨by decide, by decide, by decide⟩, by decide⟩, ⟨by decide, by decide⟩, by decide, named_of (by decide),
    num_wf _ (by decide) (by decide), ⟨by decide, by decide⟩, by decide, trivial⟩

theorem not_starts {ci : Bool} {p w : List Char} (h : ∀ c d, p.head? = some c → w.head? = some d → eqc ci d c = false) (hp : p ≠ []) : ¬ Starts ci p w := by
  rintro ⟨m, r, rfl, hs⟩
  unfold Same at hs
  cases hs with
  | nil => exact hp rfl
  | cons a b =>
    have := h _ _ rfl rfl
    simp [this] at a

theorem demo_type : NoType true ['a'] :=
  ⟨not_starts (by intro c d hc hd; cases hc; cases hd; decide) (by decide), not_starts (by intro c d hc hd; cases hc; cases hd; decide) (by decide),
    not_starts (by intro c d hc hd; cases hc; cases hd; decide) (by decide)⟩

/-- the last `a` counts, in either case -/
example (f : Frame) : ∃ f', command demoOpts f "a=5, b={2*a} A=7".toList = .done f' [] ∧
    f'.find ['a'] = some ⟨.flt, ['#'], some (.flt ((num [7]).value .si))⟩ ∧ f'.find ['b'] = some ⟨.flt, ['2', '*', 'a'], none⟩ := by
  obtain ⟨f', h1, h2⟩ := param_sets demoOpts f ⟨['a'], .num (num [5])⟩ comma _ demo_line demo_type
  exact ⟨f', h1, h2 ['a'], h2 ['b']⟩

/-- `realvalue=1` -/
example (f : Frame) : ∃ f', command demoOpts f "realvalue=1".toList = .done f' [] ∧
    f'.find ['v', 'a', 'l', 'u', 'e'] = some ⟨.flt, ['#'], some (.flt ((num [1]).value .si))⟩ ∧
    f'.find ['r', 'e', 'a', 'l', 'v', 'a', 'l', 'u', 'e'] = f.find ['r', 'e', 'a', 'l', 'v', 'a', 'l', 'u', 'e'] := by
  obtain ⟨-, f', h1, h2, h3⟩ := type_prefix_wrong demoOpts f ['v', 'a', 'l', 'u', 'e'] (named_of (by decide)) (.num (num [1])) (num_wf _ (by decide) (by decide))
  exact ⟨f', h1, h2, h3⟩

/-- `a=5 b` -/
example (f : Frame) : ∃ f', command demoOpts f "a=5 b".toList = .done f' [] ∧ f'.find ['b'] = some ⟨.flt, ['#'], some (.flt ((num [5]).value .si))⟩ :=
  missing_value_wrong demoOpts f ⟨['a'], .num (num [5])⟩ (named_of (by decide)) (num_wf _ (by decide) (by decide)) demo_type blank ⟨by decide, by decide⟩ (by decide)
    ['b'] (named_of (by decide))

/-- `a=NARROW` -/
example (f : Frame) : ∃ f', command demoOpts f "a=NARROW".toList = .done f' [] ∧ f'.find ['r', 'r', 'o', 'w'] = some ⟨.flt, ['#'], none⟩ ∧
    f'.find ['a'] = some ⟨.flt, ['#'], none⟩ :=
  na_prefix_wrong demoOpts f ['a'] (named_of (by decide)) demo_type ['R', 'R', 'O', 'W'] (named_of (by decide))

/-- `real b=5` under Verilog -/
example (f : Frame) : ∃ f', command ⟨.si, false, true⟩ f "real b=5".toList = .done f' [] ∧ f'.find ['b'] = some ⟨.vreal, ['#'], some (.vreal ((num [5]).value .si))⟩ := by
  obtain ⟨f', h1, h2⟩ := param_real ⟨.si, false, true⟩ f blank ⟨by decide, by decide⟩ ⟨['b'], .num (num [5])⟩ nothing []
    ⟨named_of (by decide), num_wf _ (by decide) (by decide), ⟨by decide, by decide⟩, by decide, trivial⟩
  exact ⟨f', h1, h2 ['b']⟩

/-- `A` after the line is 7, in any scope inside -/
example (f : Frame) (rest : Chain) : ∃ f', command ⟨.si, true, false⟩ f "a=5, b={2*a} A=7".toList = .done f' [] ∧ ∃ j, deepLookup true (f' :: rest) ['A'] = some j ∧
    eVal E0 (f' :: rest) 20 j none = (20, .val (.flt ((num [7]).value .si))) :=
  param_number E0 .si f rest ⟨['a'], .num (num [5])⟩ comma _ demo_line demo_type ['A'] (num [7]) (by rfl) 19 none

/-- `b={2*3}` is 6 -/
example (f : Frame) (rest : Chain) : ∃ f', command ⟨.si, true, false⟩ f "b={2*3}".toList = .done f' [] ∧ ∃ j, deepLookup true (f' :: rest) ['b'] = some j ∧
    eVal E0 (f' :: rest) 20 j none = (20, .val (.flt 6)) := by
  obtain ⟨f', h1, j, h2, h3⟩ := param_expression E0 .si f rest ⟨['b'], .expr '{' '}' ['2', '*', '3']⟩ nothing []
    ⟨named_of (by decide), ⟨.inr (.inl ⟨rfl, rfl⟩), ⟨by decide, by decide, by decide⟩, by decide⟩, ⟨by decide, by decide⟩, by decide, trivial⟩
    ⟨not_starts (by intro c d hc hd; cases hc; cases hd; decide) (by decide), not_starts (by intro c d hc hd; cases hc; cases hd; decide) (by decide),
      not_starts (by intro c d hc hd; cases hc; cases hd; decide) (by decide)⟩
    ['b'] '{' '}' ['2', '*', '3'] (by rfl) (by decide) (by decide) (.bin ['*'] (.name ['2']) (.name ['3'])) [] 0 (.int 6) (.flt 6) (by with_unfolding_all rfl) (by decide)
    (by rfl) 19 none
  refine ⟨f', h1, j, h2, h3 ?_⟩
  exact .bin 0 ['*'] .mul _ _ (.int 2) (.int 3) (.int 6) (by rfl) (.num 0 _ _ (by decide +kernel) (by with_unfolding_all rfl))
    (.num 0 _ _ (by decide +kernel) (by with_unfolding_all rfl)) (by rfl)

/-- `c` is what it was -/
example (f : Frame) (rest : Chain) : ∃ f', command ⟨.si, true, false⟩ f "a=5, b={2*a} A=7".toList = .done f' [] ∧
    deepLookup true (f' :: rest) ['c'] = deepLookup true (f :: rest) ['c'] :=
  param_others E0 .si f rest ⟨['a'], .num (num [5])⟩ comma _ demo_line demo_type ['c'] (by decide)

end Gnucap.ParCmd
