import Verif.OptModel
import Verif.ScanProps
import Verif.SpiceProps
import Verif.NumProps

/-!
# Names of options (C75): which option a word selects

The patterns of the table as segments, and what they do with a word that something that ends words follows.
-/
namespace Gnucap.Opt
open Gnucap.Scan Gnucap.Num

/-- a pattern from its text; the first argument is what was collected of an optional part -/
def segsOf : Option (List Char) → List Char → List Seg
  | none, [] => []
  | some a, [] => [.opt a]
  | none, c :: r => if c = '{' then segsOf (some []) r else if c = ' ' then .delim :: segsOf none r else .lit c :: segsOf none r
  | some a, c :: r => if c = '}' then .opt a :: segsOf none r else segsOf (some (a ++ [c])) r

def Entry.segs (e : Entry) : List Seg := segsOf none e.pattern
def Entry.noSegs (e : Entry) : List Seg := segsOf none (['n', 'o'] ++ e.key)

/-- a word: characters that neither are blank nor end a word -/
def Word (w : List Char) : Prop := w ≠ [] ∧ ∀ c ∈ w, isGraph c = true ∧ isTermChar c = false

/-- up to the first delimiter there is nothing that ends words -/
def clean : List Seg → Bool
  | [] => true
  | .lit c :: r => !isTermChar c && clean r
  | .opt o :: r => o.all (fun c => !isTermChar c) && clean r
  | .delim :: _ => true

/-- the pattern does not match the word, whatever follows it -/
def fails (ci : Bool) : List Seg → List Char → Bool
  | [], _ => false
  | .lit _ :: _, [] => true
  | .lit c :: r, d :: w => if eqc ci d c then fails ci r w else true
  | .opt o :: r, w => fails ci r (optDrop ci o w)
  | .delim :: _, [] => false
  | .delim :: _, _ :: _ => true

/-- what is left of the pattern behind the word, if it gets so far -/
def reach (ci : Bool) : List Seg → List Char → Option (List Seg)
  | [], [] => some []
  | [], _ :: _ => none
  | .lit _ :: _, [] => none
  | .lit c :: r, d :: w => if eqc ci d c then reach ci r w else none
  | .opt o :: r, w => reach ci r (optDrop ci o w)
  | .delim :: r, [] => some (.delim :: r)
  | .delim :: _, _ :: _ => none

theorem optDrop_nil (ci : Bool) (o : List Char) : optDrop ci o [] = [] := by cases o <;> rfl

theorem optDrop_words (ci : Bool) (rest : List Char) (hr : isTerm rest = true) : ∀ (o w : List Char), (∀ c ∈ o, isTermChar c = false) →
    optDrop ci o (w ++ rest) = optDrop ci o w ++ rest
  | [], w, _ => rfl
  | c :: o, [], ho => by
    cases rest with
    | nil => rfl
    | cons d t =>
      have hd : isTermChar d = true := hr
      have : eqc ci d c = false := by
        by_contra h
        have := eqc_term ci d c (by simpa using h) hd
        subst this
        exact absurd (ho c (by simp)) (by simp [hd])
      simp [optDrop, this]
  | c :: o, d :: w, ho => by
    simp only [List.cons_append, optDrop]
    split
    · exact optDrop_words ci rest hr o w (fun x hx => ho x (by simp [hx]))
    · rfl

theorem optDrop_sub (ci : Bool) : ∀ (o w : List Char), optDrop ci o w <:+ w
  | [], w => List.suffix_refl w
  | _ :: _, [] => List.suffix_refl []
  | c :: o, d :: w => by
    simp only [optDrop]
    split
    · exact (optDrop_sub ci o w).trans (List.suffix_cons d w)
    · exact List.suffix_refl _

theorem fails_spec (ci : Bool) (rest : List Char) (hr : isTerm rest = true) : ∀ (p : List Seg) (w : List Char), clean p = true →
    (∀ c ∈ w, isTermChar c = false) → fails ci p w = true → segMatch ci p (w ++ rest) = none
  | [], w, _, _, h => by simp [fails] at h
  | .lit c :: r, [], hc, hw, h => by
    simp only [List.nil_append, segMatch]
    cases rest with
    | nil => rfl
    | cons d t =>
      have hd : isTermChar d = true := hr
      simp only [clean, Bool.and_eq_true, Bool.not_eq_true'] at hc
      have : eqc ci d c = false := by
        by_contra h
        have := eqc_term ci d c (by simpa using h) hd
        rw [this, hd] at hc
        simp at hc
      simp [this]
  | .lit c :: r, d :: w, hc, hw, h => by
    simp only [clean, Bool.and_eq_true, Bool.not_eq_true'] at hc
    simp only [List.cons_append, segMatch]
    by_cases he : eqc ci d c = true
    · simp only [fails, he, if_true] at h ⊢
      exact fails_spec ci rest hr r w hc.2 (fun x hx => hw x (by simp [hx])) h
    · simp [he]
  | .opt o :: r, w, hc, hw, h => by
    simp only [clean, Bool.and_eq_true, List.all_eq_true, Bool.not_eq_true'] at hc
    simp only [segMatch, optDrop_words ci rest hr o w hc.1]
    exact fails_spec ci rest hr r _ hc.2 (fun x hx => hw x ((optDrop_sub ci o w).subset hx)) h
  | .delim :: r, [], _, _, h => by simp [fails] at h
  | .delim :: r, d :: w, _, hw, _ => by
    simp [segMatch, isTerm, hw d (by simp)]

theorem reach_spec (ci : Bool) (rest : List Char) (hr : isTerm rest = true) : ∀ (p : List Seg) (w : List Char) (q : List Seg), clean p = true →
    reach ci p w = some q → segMatch ci p (w ++ rest) = segMatch ci q rest
  | [], [], q, _, h => by simp [reach] at h; subst h; rfl
  | [], _ :: _, q, _, h => by simp [reach] at h
  | .lit _ :: _, [], q, _, h => by simp [reach] at h
  | .lit c :: r, d :: w, q, hc, h => by
    simp only [clean, Bool.and_eq_true] at hc
    simp only [reach] at h
    by_cases he : eqc ci d c = true
    · simp only [he, if_true] at h
      simp only [List.cons_append, segMatch, he, if_true]
      exact reach_spec ci rest hr r w q hc.2 h
    · simp [he] at h
  | .opt o :: r, w, q, hc, h => by
    simp only [clean, Bool.and_eq_true, List.all_eq_true, Bool.not_eq_true'] at hc
    simp only [segMatch, optDrop_words ci rest hr o w hc.1]
    exact reach_spec ci rest hr r _ q hc.2 h
  | .delim :: r, [], q, _, h => by simp [reach] at h; subst h; rfl
  | .delim :: _, _ :: _, q, _, h => by simp [reach] at h

/-! ### the table -/

deriving instance DecidableEq for Seg
deriving instance DecidableEq for Kind

/-- the pattern `p` is what `segsOf` makes of it, and begins with a character -/
def sound (p : List Char) : Bool :=
  decide (segText (segsOf none p) = p) && (segsOf none p).all Seg.wf && clean (segsOf none p) &&
  (match segsOf none p with | .lit _ :: _ => true | _ => false)

def Kind.choices : Kind → List (List Char × ℤ)
  | .enm l => l
  | _ => []

theorem table_sound : (table.all fun e => sound e.pattern && sound (['n', 'o'] ++ e.key) &&
    e.kind.choices.all (fun c => sound (c.1 ++ [' ']))) = true := by decide +kernel

theorem boolWords_sound : (boolWords.all fun c => sound (c.1 ++ [' '])) = true := by decide +kernel

theorem umatch_sound (ci : Bool) (p s : List Char) (h : sound p = true) :
    umatch ci p s = match segMatch ci (segsOf none p) (skipbl s) with
      | some r => .ok (skipcom r)
      | none => .fail := by
  simp only [sound, Bool.and_eq_true, decide_eq_true_eq, List.all_eq_true] at h
  have := umatch_single ci (segsOf none p) h.1.1.2 s
  rw [h.1.1.1] at this
  exact this

theorem entry_sound {e : Entry} (he : e ∈ table) : sound e.pattern = true ∧ sound (['n', 'o'] ++ e.key) = true ∧
    ∀ c ∈ e.kind.choices, sound (c.1 ++ [' ']) = true := by
  have := List.all_eq_true.mp table_sound e he
  simpa only [Bool.and_eq_true, List.all_eq_true, and_assoc] using this

theorem sound_clean {p : List Char} (h : sound p = true) : clean (segsOf none p) = true := by
  simp only [sound, Bool.and_eq_true] at h
  exact h.1.2

/-- the word is not for this entry -/
def miss (ci : Bool) (w : List Char) (e : Entry) : Bool :=
  fails ci e.segs w && (if e.kind = .flag then fails ci e.noSegs w else true)

theorem Word.skipbl {w : List Char} (hw : Word w) (rest : List Char) : skipbl (w ++ rest) = w ++ rest := by
  obtain ⟨h, h'⟩ := hw
  cases w with
  | nil => exact absurd rfl h
  | cons c w => exact Spice.skipbl_cons _ (h' c (by simp)).1

theorem tryEntry_miss (langs : List Lang) (o : Opts) (e : Entry) (he : e ∈ table) (w rest : List Char) (hw : Word w)
    (hr : isTerm rest = true) (h : miss o.ci w e = true) : tryEntry langs o e (w ++ rest) = .no (w ++ rest) := by
  obtain ⟨s1, s2, _⟩ := entry_sound he
  simp only [miss, Bool.and_eq_true] at h
  have hn : ∀ c ∈ w, isTermChar c = false := fun c hc => (hw.2 c hc).2
  have h1 : umatch o.ci e.pattern (w ++ rest) = .fail := by
    rw [umatch_sound _ _ _ s1, hw.skipbl, fails_spec o.ci rest hr _ w (sound_clean s1) hn h.1]
  unfold tryEntry
  rw [h1]
  simp only
  split
  · rename_i hk
    have h2 := h.2
    rw [if_pos hk] at h2
    rw [umatch_sound _ _ _ s2, hw.skipbl, fails_spec o.ci rest hr (segsOf none (['n', 'o'] ++ e.key)) w (sound_clean s2) hn h2]
  · rfl

theorem tryAll_misses (langs : List Lang) (o : Opts) (w rest : List Char) (hw : Word w) (hr : isTerm rest = true) (post : List Entry) :
    ∀ (pre : List Entry), (∀ e ∈ pre, e ∈ table ∧ miss o.ci w e = true) →
      tryAll langs o (pre ++ post) (w ++ rest) = tryAll langs o post (w ++ rest)
  | [], _ => rfl
  | e :: pre, h => by
    obtain ⟨h1, h2⟩ := h e (by simp)
    simp only [List.cons_append, tryAll, tryEntry_miss langs o e h1 w rest hw hr h2]
    exact tryAll_misses langs o w rest hw hr post pre (fun x hx => h x (by simp [hx]))

/-- the first entry the word is for -/
def firstFor (ci : Bool) (w : List Char) : Option Entry := table.find? (fun e => !miss ci w e)

/-- what follows is tried only if that entry gives up behind the name -/
theorem tryAll_first (langs : List Lang) (o : Opts) (w rest : List Char) (hw : Word w) (hr : isTerm rest = true) (e : Entry)
    (h : firstFor o.ci w = some e) : e ∈ table ∧ ∃ post, tryAll langs o table (w ++ rest) =
      match tryEntry langs o e (w ++ rest) with
      | .no s => tryAll langs o post s
      | x => x := by
  obtain ⟨_, pre, post, ht, hpre⟩ := List.find?_eq_some_iff_append.mp h
  refine ⟨by rw [ht]; simp, post, ?_⟩
  have : tryAll langs o table (w ++ rest) = tryAll langs o (pre ++ e :: post) (w ++ rest) := by rw [ht]
  rw [this, tryAll_misses langs o w rest hw hr (e :: post) pre]
  · rfl
  · intro x hx
    refine ⟨by rw [ht]; simp [hx], by simpa using hpre x hx⟩

/-- what is left of a pattern behind the name -/
def Kind.ending : Kind → List Seg
  | .flag => [.delim]
  | .set _ => [.delim]
  | _ => [.delim, .opt ['=']]

/-- the text behind the name and what belongs to it -/
def Kind.behind (k : Kind) (rest : List Char) : List Char :=
  match k with
  | .flag => skipcom (skipbl rest)
  | .set _ => skipcom (skipbl rest)
  | _ => skipcom (optDrop false ['='] (skipbl rest))

theorem optDrop_eq (ci : Bool) (s : List Char) : optDrop ci ['='] s = optDrop false ['='] s := by
  cases s with
  | nil => rfl
  | cons d t =>
    have : eqc ci d '=' = eqc false d '=' := by
      cases ci
      · rfl
      · simp only [eqc, Bool.false_and, Bool.or_false, Bool.true_and]
        by_cases h : d = '='
        · simp [h]
        · have : d.toLower ≠ '=' := fun h' => h (toLower_eq_term d '=' (by decide) h')
          have e : Char.toLower '=' = '=' := by decide
          simp [e, h, this]
    simp [optDrop, this]

/-- the word gets to the end of the name of the entry -/
def selects (ci : Bool) (w : List Char) (v : Var) (k : Kind) : Bool :=
  match firstFor ci w with
  | some e => decide (e.var = v ∧ e.kind = k ∧ reach ci e.segs w = some k.ending)
  | none => false

def Out.orElse (x : Out) (f : List Char → Out) : Out :=
  match x with
  | .no s => f s
  | x => x

theorem select_name (langs : List Lang) (o : Opts) (w rest : List Char) (hw : Word w) (hr : isTerm rest = true) (v : Var) (k : Kind)
    (h : selects o.ci w v k = true) : ∃ post, tryAll langs o table (w ++ rest) =
      (take langs o v k (k.behind rest)).orElse (tryAll langs o post) := by
  unfold selects at h
  cases hf : firstFor o.ci w with
  | none => rw [hf] at h; simp at h
  | some e =>
    rw [hf] at h
    simp only [decide_eq_true_eq] at h
    obtain ⟨rfl, rfl, h3⟩ := h
    obtain ⟨he, post, hp⟩ := tryAll_first langs o w rest hw hr e hf
    refine ⟨post, ?_⟩
    have s1 := (entry_sound he).1
    have h1 : umatch o.ci e.pattern (w ++ rest) = .ok (e.kind.behind rest) := by
      rw [umatch_sound _ _ _ s1, hw.skipbl, reach_spec o.ci rest hr (segsOf none e.pattern) w _ (sound_clean s1) h3]
      cases hk : e.kind <;> simp [Kind.ending, Kind.behind, segMatch, hr, optDrop_eq o.ci]
    rw [hp]
    unfold tryEntry
    rw [h1]
    rfl

/-- the word is `no` and the name of a flag -/
def selectsNo (ci : Bool) (w : List Char) (v : Var) : Bool :=
  match firstFor ci w with
  | some e => decide (e.var = v ∧ e.kind = .flag ∧ fails ci e.segs w = true ∧ reach ci e.noSegs w = some [])
  | none => false

theorem select_no (langs : List Lang) (o : Opts) (w rest : List Char) (hw : Word w) (hr : isTerm rest = true) (v : Var)
    (h : selectsNo o.ci w v = true) : tryAll langs o table (w ++ rest) = .yes (o.setFlag v false) (skipcom rest) := by
  unfold selectsNo at h
  cases hf : firstFor o.ci w with
  | none => rw [hf] at h; simp at h
  | some e =>
    rw [hf] at h
    simp only [decide_eq_true_eq] at h
    obtain ⟨rfl, h2, h3, h4⟩ := h
    obtain ⟨he, post, hp⟩ := tryAll_first langs o w rest hw hr e hf
    obtain ⟨s1, s2, _⟩ := entry_sound he
    have hn : ∀ c ∈ w, isTermChar c = false := fun c hc => (hw.2 c hc).2
    have h1 : umatch o.ci e.pattern (w ++ rest) = .fail := by
      rw [umatch_sound _ _ _ s1, hw.skipbl, fails_spec o.ci rest hr (segsOf none e.pattern) w (sound_clean s1) hn h3]
    have h5 : umatch o.ci (['n', 'o'] ++ e.key) (w ++ rest) = .ok (skipcom rest) := by
      rw [umatch_sound _ _ _ s2, hw.skipbl, reach_spec o.ci rest hr (segsOf none (['n', 'o'] ++ e.key)) w _ (sound_clean s2) h4]
      rfl
    rw [hp]
    unfold tryEntry
    rw [h1, h2]
    simp only [h5]

/-! ### all names, in full and shortened -/

/-- the ways to write a key: what must be there and any beginning of what is in braces -/
def writings (key : List Char) : List (List Char) :=
  let must := key.takeWhile (· ≠ '{')
  let may := (key.drop (must.length + 1)).takeWhile (· ≠ '}')
  (List.range (may.length + 1)).map fun k => must ++ may.take k

def isWord (w : List Char) : Bool := decide (w ≠ []) && w.all (fun c => isGraph c && !isTermChar c)

theorem word_of {w : List Char} (h : isWord w = true) : Word w := by
  simpa [isWord, Word] using h

theorem names_checked : (table.all fun e => (writings e.key).all fun w =>
    isWord w && selects false w e.var e.kind && selects true w e.var e.kind) = true := by decide +kernel

theorem no_names_checked : (table.all fun e => decide (e.kind ≠ .flag) || (writings e.key).all fun w =>
    isWord (['n', 'o'] ++ w) && selectsNo false (['n', 'o'] ++ w) e.var && selectsNo true (['n', 'o'] ++ w) e.var) = true := by
  decide +kernel

/-- **C75, names**: the name of every option, in full or shortened in any way its key allows, followed by anything that ends a word,
gets to that option and no other: what is done is what its kind does with the text behind the name (alternatives further on are tried
only if that text is none of the choices of an enumeration). -/
theorem name_selects (langs : List Lang) (o : Opts) (e : Entry) (he : e ∈ table) (w : List Char) (hw : w ∈ writings e.key)
    (rest : List Char) (hr : isTerm rest = true) : ∃ post, tryAll langs o table (w ++ rest) =
      (take langs o e.var e.kind (e.kind.behind rest)).orElse (tryAll langs o post) := by
  have := List.all_eq_true.mp (List.all_eq_true.mp names_checked e he) w hw
  simp only [Bool.and_eq_true] at this
  apply select_name langs o w rest (word_of this.1.1) hr
  cases h : o.ci
  · exact this.1.2
  · exact this.2

/-- **C75, names with no**: `no` and the name of a flag clears that flag. -/
theorem no_name_clears (langs : List Lang) (o : Opts) (e : Entry) (he : e ∈ table) (hk : e.kind = .flag) (w : List Char)
    (hw : w ∈ writings e.key) (rest : List Char) (hr : isTerm rest = true) :
    tryAll langs o table (['n', 'o'] ++ w ++ rest) = .yes (o.setFlag e.var false) (skipcom rest) := by
  have := List.all_eq_true.mp no_names_checked e he
  simp only [hk, ne_eq, not_true_eq_false, decide_false, Bool.false_or] at this
  have := List.all_eq_true.mp this w hw
  simp only [Bool.and_eq_true] at this
  apply select_no langs o _ rest (word_of this.1.1) hr
  cases h : o.ci
  · exact this.1.2
  · exact this.2

/-- `damps`, `dampst`, ... -/
example : (⟨['d', 'a', 'm', 'p', 's', '{', 't', 'r', 'a', 't', 'e', 'g', 'y', '}'], .dampstrategy, .oct⟩ : Entry) ∈ table ∧
    ['d', 'a', 'm', 'p', 's', 't'] ∈ writings ['d', 'a', 'm', 'p', 's', '{', 't', 'r', 'a', 't', 'e', 'g', 'y', '}'] ∧
    isTerm ['=', '1', '1'] = true := by
  refine ⟨?_, by decide, by decide⟩
  simp [table]

/-! ### choices -/

/-- the word gets to the end of the choice with the number `z`, and not of one before it -/
def chooses (ci : Bool) (choices : List (List Char × ℤ)) (w : List Char) (z : ℤ) : Bool :=
  match choices.find? (fun c => !fails ci (segsOf none (c.1 ++ [' '])) w) with
  | some c => decide (c.2 = z ∧ reach ci (segsOf none (c.1 ++ [' '])) w = some [.delim])
  | none => false

theorem choose_name (ci : Bool) (w rest : List Char) (hw : Word w) (hr : isTerm rest = true) (z : ℤ) : ∀ (l : List (List Char × ℤ)),
    (∀ c ∈ l, sound (c.1 ++ [' ']) = true) → chooses ci l w z = true → choose ci (w ++ rest) l = some (z, skipcom (skipbl rest))
  | [], _, h => by simp [chooses] at h
  | c :: l, hs, h => by
    have hn : ∀ c ∈ w, isTermChar c = false := fun c hc => (hw.2 c hc).2
    have s1 := hs c (by simp)
    by_cases hf : fails ci (segsOf none (c.1 ++ [' '])) w = true
    · have h' : chooses ci l w z = true := by
        unfold chooses at h ⊢
        rw [List.find?_cons] at h
        simpa [hf] using h
      have h1 : umatch ci (c.1 ++ [' ']) (w ++ rest) = .fail := by
        rw [umatch_sound _ _ _ s1, hw.skipbl, fails_spec ci rest hr (segsOf none (c.1 ++ [' '])) w (sound_clean s1) hn hf]
      simp only [choose, h1]
      exact choose_name ci w rest hw hr z l (fun x hx => hs x (by simp [hx])) h'
    · unfold chooses at h
      rw [List.find?_cons] at h
      simp only [hf, Bool.not_false, decide_eq_true_eq] at h
      obtain ⟨h1, h2⟩ := h
      have h3 : umatch ci (c.1 ++ [' ']) (w ++ rest) = .ok (skipcom (skipbl rest)) := by
        rw [umatch_sound _ _ _ s1, hw.skipbl, reach_spec ci rest hr (segsOf none (c.1 ++ [' '])) w _ (sound_clean s1) h2]
        simp [segMatch, hr]
      simp only [choose, h3, h1]

end Gnucap.Opt
