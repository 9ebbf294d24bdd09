import Verif.OptValues
import Verif.TranCmdModel
import Verif.AnaCmdProps
import Verif.TranSetProps

/-! # The command lines of the TRANSIENT and FOURIER analyses: what a line sets (claim C92) -/

namespace Gnucap.TranCmd
open Gnucap.Scan Gnucap.Spice Gnucap.Num
open Gnucap.AnaCmd (Param parse Env isArg End spelled sepText gap Follows skipbl_gap skipcom_gap stops_gap term_gap term_sep word_head numeral_head
  parse_numeral number_numeral skipbl_blank gap_len Like optSeg fails_lits optDrop_all like_append numsText numeral_follows nums_follows isArg_float bool_choice)

/-! ## What lines mean -/

/-- the words: what must be written, what may be written behind it, what it is for -/
def names : List (List Char × List Char × Act) := [
  (['c'], ['o', 'l', 'd'], .flag .cold),
  (['d', 't', 'e'], ['m', 'p'], .dtemp),
  (['d', 't', 'm', 'a'], ['x'], .par .dtmax),
  (['d', 't', 'm', 'i'], ['n'], .par .dtmin),
  (['d', 't', 'r'], ['a', 't', 'i', 'o'], .par .dtratio),
  (['p', 'l'], ['o', 't'], .flag .plot),
  (['s', 'k'], ['i', 'p'], .int .skip),
  (['s', 't', 'a'], ['r', 't'], .par .start),
  (['s', 't', 'o'], ['p'], .par .stop),
  (['s', 't', 'r'], ['o', 'b', 'e', 'p', 'e', 'r', 'i', 'o', 'd'], .par .strobe),
  (['t', 'e'], ['m', 'p', 'e', 'r', 'a', 't', 'u', 'r', 'e'], .temp),
  (['u', 'i', 'c'], [], .flag .uic),
  (['t', 'r'], ['a', 'c', 'e'], .trace)]

/-- what a word is for -/
def meant (w : List Char) : Option Act := (names.find? fun e => (spelled e.1 e.2.1).contains w).map (·.2.2)

/-- the words behind `trace` -/
def traceNames : List (List Char × List Char × Trace) := [
  (['n'], ['o', 'n', 'e'], .none),
  (['o'], ['f', 'f'], .none),
  (['w'], ['a', 'r', 'n', 'i', 'n', 'g', 's'], .under),
  (['a'], ['l', 'l', 't', 'i', 'm', 'e'], .alltime),
  (['r'], ['e', 'j', 'e', 'c', 't', 'e', 'd'], .rejected),
  (['i'], ['t', 'e', 'r', 'a', 't', 'i', 'o', 'n', 's'], .iteration),
  (['v'], ['e', 'r', 'b', 'o', 's', 'e'], .verbose)]

def traceMeant (w : List Char) : Option Trace := (traceNames.find? fun e => (spelled e.1 e.2.1).contains w).map (·.2.2)

/-- What stands on a line: a word and a number (with a blank or an equal sign between), a word that turns a flag on, or off with
`no` in front, a flag and what it is to be, `trace` and one of its words -/
inductive Item where
  | num (name : List Char) (eq : Bool) (n : Numeral)
  | flag (name : List Char) (on : Bool)
  | is (name : List Char) (what : List Char)
  | trace (name : List Char) (eq : Bool) (what : List Char)

def Item.text : Item → List Char
  | .num w q n => w ++ sepText q :: n.text
  | .flag w on => (if on then [] else ['n', 'o']) ++ w
  | .is w t => w ++ '=' :: t
  | .trace w q t => w ++ sepText q :: t

/-- items with blanks between, and a text behind -/
def lineText : List Item → List Char → List Char
  | [], z => z
  | i :: l, z => i.text ++ gap (lineText l z)

/-- without what is behind the point -/
def whole (x : ℚ) : ℤ := if 0 ≤ x then ⌊x⌋ else ⌈x⌉

/-- what an item does -/
def Item.does (e : Env) (st : St) : Item → St
  | .num w _ n =>
    match meant w with
    | some (.par f) => { st with par := fun g => if g = f then .num (n.value e.units) else st.par g }
    | some (.int f) => { st with par := fun g => if g = f then .num (whole (n.value e.units)) else st.par g }
    | some .dtemp => { st with temp := e.optTemp + n.value e.units }
    | some .temp => { st with temp := n.value e.units }
    | _ => st
  | .flag w on =>
    match meant w with
    | some (.flag f) => { st with flag := fun g => if g = f then on else st.flag g }
    | _ => st
  | .is w t =>
    match meant w with
    | some (.flag f) => { st with flag := fun g => if g = f then decide (t ∈ Opt.yesWords) else st.flag g }
    | _ => st
  | .trace _ _ t =>
    match traceMeant t with
    | some x => { st with trace := x }
    | none => st

/-- an item of the command: a known word with what it takes; what is a whole number fits into an `int` -/
def Item.Good (e : Env) : Item → Prop
  | .num w _ n => (∃ a, meant w = some a ∧ a ≠ .trace ∧ (∀ f, a ≠ .flag f) ∧ ∀ f, a = .int f → |n.value e.units| ≤ intMax) ∧ n.Wf
  | .flag w _ => ∃ f, meant w = some (.flag f)
  | .is w t => (∃ f, meant w = some (.flag f)) ∧ (t ∈ Opt.yesWords ∨ t ∈ Opt.noWords)
  | .trace w _ t => meant w = some .trace ∧ traceMeant t ≠ none

/-! ## Words -/

def ending : Act → List Seg
  | .flag _ => [.delim]
  | _ => [.delim, .opt ['=']]

def miss (ci : Bool) (w : List Char) (x : List Char × Act) : Bool :=
  Opt.fails ci (Opt.segsOf none (x.2.pattern x.1)) w &&
    (match x.2 with | .flag _ => Opt.fails ci (Opt.segsOf none (['n', 'o'] ++ x.1)) w | _ => true)

def firstFor (ci : Bool) (w : List Char) : Option (List Char × Act) := table.find? fun x => !miss ci w x

def picks (ci : Bool) (w : List Char) : Bool :=
  match firstFor ci w, meant w with
  | some x, some a => decide (x.2 = a) && decide (Opt.reach ci (Opt.segsOf none (x.2.pattern x.1)) w = some (ending a))
  | _, _ => false

def picksNo (ci : Bool) (w : List Char) : Bool :=
  match meant w with
  | some (.flag f) =>
    match firstFor ci (['n', 'o'] ++ w) with
    | some x => decide (x.2 = .flag f) && Opt.fails ci (Opt.segsOf none (x.2.pattern x.1)) (['n', 'o'] ++ w) &&
        decide (Opt.reach ci (Opt.segsOf none (['n', 'o'] ++ x.1)) (['n', 'o'] ++ w) = some [])
    | none => false
  | _ => true

theorem table_sound : (table.all fun x => Opt.sound (x.2.pattern x.1) && Opt.sound (['n', 'o'] ++ x.1)) = true := by decide +kernel

theorem table_words : ((names.flatMap fun e => spelled e.1 e.2.1).all fun w => Opt.isWord w && Opt.isWord (['n', 'o'] ++ w) && !isArg w &&
    !isPArg w && picks false w && picks true w && picksNo false w && picksNo true w) = true := by decide +kernel

theorem meant_words (w : List Char) (a : Act) (h : meant w = some a) : w ∈ names.flatMap fun e => spelled e.1 e.2.1 := by
  unfold meant at h
  rcases hf : names.find? (fun e => (spelled e.1 e.2.1).contains w) with _ | e
  · rw [hf] at h; cases h
  · obtain ⟨h1, -⟩ := List.find?_eq_some_iff_append.mp hf
    exact List.mem_flatMap.mpr ⟨e, List.mem_of_find?_eq_some hf, List.contains_iff_mem.mp h1⟩

theorem fits {w : List Char} {a : Act} (h : meant w = some a) : Opt.Word w ∧ Opt.Word (['n', 'o'] ++ w) ∧ (isArg w = false ∧ isPArg w = false) ∧
    ∀ ci, picks ci w = true ∧ picksNo ci w = true := by
  have := List.all_eq_true.mp table_words w (meant_words w a h)
  simp only [Bool.and_eq_true, Bool.not_eq_true'] at this
  obtain ⟨⟨⟨⟨⟨⟨⟨h1, h2⟩, h3⟩, h3'⟩, h4⟩, h5⟩, h6⟩, h7⟩ := this
  refine ⟨Opt.word_of h1, Opt.word_of h2, ⟨h3, h3'⟩, fun ci => ?_⟩
  cases ci
  · exact ⟨h4, h6⟩
  · exact ⟨h5, h7⟩

theorem snd {x : List Char × Act} (h : x ∈ table) : Opt.sound (x.2.pattern x.1) = true ∧ Opt.sound (['n', 'o'] ++ x.1) = true := by
  have := List.all_eq_true.mp table_sound x h
  simpa only [Bool.and_eq_true] using this

theorem tryAll_misses (e : Env) (st : St) (w rest : List Char) (hw : Opt.Word w) (hr : isTerm rest = true)
    (post : List (List Char × Act)) : ∀ (pre : List (List Char × Act)), (∀ x ∈ pre, x ∈ table ∧ miss e.ci w x = true) →
      tryAll e st (w ++ rest) (pre ++ post) = tryAll e st (w ++ rest) post
  | [], _ => rfl
  | x :: pre, h => by
    obtain ⟨h1, h2⟩ := h x (by simp)
    obtain ⟨s1, s2⟩ := snd h1
    have hn : ∀ c ∈ w, isTermChar c = false := fun c hc => (hw.2 c hc).2
    have hu : ∀ p, Opt.sound p = true → Opt.fails e.ci (Opt.segsOf none p) w = true → umatch e.ci p (w ++ rest) = .fail := by
      intro p hp hf
      rw [Opt.umatch_sound _ _ _ hp, hw.skipbl, Opt.fails_spec e.ci rest hr _ w (Opt.sound_clean hp) hn hf]
    obtain ⟨key, a⟩ := x
    simp only [miss, Bool.and_eq_true] at h2
    have ih := tryAll_misses e st w rest hw hr post pre (fun x hx => h x (by simp [hx]))
    have u1 := hu _ s1 h2.1
    cases a with
    | flag f =>
      have u2 := hu _ s2 h2.2
      simp only at u1 u2
      rw [List.cons_append]
      simp only [tryAll, u1, u2]
      exact ih
    | _ =>
      simp only at u1
      simp only [List.cons_append, tryAll, u1]
      exact ih

theorem tryAll_first (e : Env) (st : St) (w rest : List Char) (hw : Opt.Word w) (hr : isTerm rest = true) (x : List Char × Act)
    (hf : firstFor e.ci w = some x) : x ∈ table ∧ ∃ post, tryAll e st (w ++ rest) table = tryAll e st (w ++ rest) (x :: post) := by
  obtain ⟨_, pre, post, hp, hpre⟩ := List.find?_eq_some_iff_append.mp hf
  refine ⟨by rw [hp]; simp, post, ?_⟩
  have := tryAll_misses e st w rest hw hr (x :: post) pre (by
    intro y hy
    exact ⟨by rw [hp]; simp [hy], by simpa using hpre y hy⟩)
  rw [← this, ← hp]

/-- what a word leaves -/
def behind (a : Act) (rest : List Char) : List Char :=
  match a with
  | .flag _ => skipcom (skipbl rest)
  | _ => skipcom (optDrop false ['='] (skipbl rest))

theorem tryAll_word (e : Env) (st : St) (w rest : List Char) (a : Act) (hm : meant w = some a) (hr : isTerm rest = true) :
    tryAll e st (w ++ rest) table = a.run e st (behind a rest) := by
  obtain ⟨hw, -, -, hc⟩ := fits hm
  have hp := (hc e.ci).1
  unfold picks at hp
  rcases hf : firstFor e.ci w with _ | x
  · rw [hf] at hp; simp at hp
  rw [hf, hm] at hp
  simp only [Bool.and_eq_true, decide_eq_true_eq] at hp
  obtain ⟨h1, h2⟩ := hp
  obtain ⟨hx, post, he⟩ := tryAll_first e st w rest hw hr x hf
  obtain ⟨s1, -⟩ := snd hx
  obtain ⟨key, a'⟩ := x
  cases h1
  have hu : umatch e.ci (a'.pattern key) (w ++ rest) = .ok (behind a' rest) := by
    rw [Opt.umatch_sound _ _ _ s1, hw.skipbl, Opt.reach_spec e.ci rest hr (Opt.segsOf none (a'.pattern key)) w _ (Opt.sound_clean s1) h2]
    cases a' <;> simp [ending, segMatch, hr, behind, Opt.optDrop_eq e.ci]
  rw [he]
  cases a' <;> simp only [tryAll, hu]

theorem tryAll_no (e : Env) (st : St) (w rest : List Char) (f : Flag) (hm : meant w = some (.flag f)) (hr : isTerm rest = true) :
    tryAll e st (['n', 'o'] ++ w ++ rest) table = some (st.setFlag f false, skipcom rest) := by
  obtain ⟨-, hw, -, hc⟩ := fits hm
  have hp := (hc e.ci).2
  unfold picksNo at hp
  rw [hm] at hp
  simp only at hp
  rcases hf : firstFor e.ci (['n', 'o'] ++ w) with _ | x
  · rw [hf] at hp; simp at hp
  rw [hf] at hp
  simp only [Bool.and_eq_true, decide_eq_true_eq] at hp
  obtain ⟨⟨h1, h2⟩, h3⟩ := hp
  obtain ⟨hx, post, he⟩ := tryAll_first e st (['n', 'o'] ++ w) rest hw hr x hf
  obtain ⟨s1, s2⟩ := snd hx
  obtain ⟨key, a'⟩ := x
  cases h1
  have hn : ∀ c ∈ ['n', 'o'] ++ w, isTermChar c = false := fun c hc => (hw.2 c hc).2
  have hu : umatch e.ci (Act.pattern key (.flag f)) (['n', 'o'] ++ w ++ rest) = .fail := by
    rw [Opt.umatch_sound _ _ _ s1, hw.skipbl, Opt.fails_spec e.ci rest hr _ _ (Opt.sound_clean s1) hn h2]
  have hu2 : umatch e.ci (['n', 'o'] ++ key) (['n', 'o'] ++ w ++ rest) = .ok (skipcom rest) := by
    rw [Opt.umatch_sound _ _ _ s2, hw.skipbl, Opt.reach_spec e.ci rest hr (Opt.segsOf none (['n', 'o'] ++ key)) _ _ (Opt.sound_clean s2) h3]
    rfl
  rw [he, tryAll, hu]
  simp only
  rw [hu2]

theorem behind_num {a : Act} (ha : ∀ f, a ≠ .flag f) (q : Bool) (c : Char) (r : List Char) (hg : isGraph c = true) (h1 : c ≠ ',') (h2 : c ≠ '=') :
    behind a (sepText q :: c :: r) = c :: r := by
  have hx : behind a (sepText q :: c :: r) = skipcom (optDrop false ['='] (skipbl (sepText q :: c :: r))) := by
    cases a <;> first | rfl | exact absurd rfl (ha _)
  have hn : Next (c :: r) := .inr ⟨c, r, rfl, hg, h1⟩
  rw [hx]
  cases q
  · simp only [sepText, Bool.false_eq_true, if_false]
    rw [skipbl_blank, skipbl_cons _ hg]
    have : optDrop false ['='] (c :: r) = c :: r := by
      simp only [optDrop]
      rw [if_neg]
      simpa [eqc] using h2
    rw [this, hn.skipcom]
  · simp only [sepText, if_true]
    rw [skipbl_cons _ (by decide)]
    have : optDrop false ['='] ('=' :: c :: r) = c :: r := by simp [optDrop, eqc]
    rw [this, hn.skipcom]

/-! ## Items -/

theorem traceWords_sound : ∀ c ∈ traceWords, Opt.sound (c.1 ++ [' ']) = true := by
  have : (traceWords.all fun c => Opt.sound (c.1 ++ [' '])) = true := by decide +kernel
  exact List.all_eq_true.mp this

theorem trace_checked : ((traceNames.flatMap fun e => spelled e.1 e.2.1).all fun t => Opt.isWord t &&
    [(0 : ℤ), 1, 2, 3, 4, 5].any (fun z => decide (traceMeant t = some (traceOf z)) && Opt.chooses false traceWords t z &&
      Opt.chooses true traceWords t z)) = true := by
  decide +kernel

theorem trace_choice (t : List Char) (x : Trace) (h : traceMeant t = some x) : Opt.Word t ∧ ∃ z, traceOf z = x ∧
    ∀ ci, Opt.chooses ci traceWords t z = true := by
  have hm : t ∈ traceNames.flatMap fun e => spelled e.1 e.2.1 := by
    unfold traceMeant at h
    rcases hf : traceNames.find? (fun e => (spelled e.1 e.2.1).contains t) with _ | e
    · rw [hf] at h; cases h
    · obtain ⟨h1, -⟩ := List.find?_eq_some_iff_append.mp hf
      exact List.mem_flatMap.mpr ⟨e, List.mem_of_find?_eq_some hf, List.contains_iff_mem.mp h1⟩
  have := List.all_eq_true.mp trace_checked t hm
  simp only [Bool.and_eq_true, List.any_eq_true, decide_eq_true_eq] at this
  obtain ⟨h1, z, -, ⟨h2, h3⟩, h4⟩ := this
  refine ⟨Opt.word_of h1, z, by rw [h] at h2; cases h2; rfl, fun ci => ?_⟩
  cases ci
  · exact h3
  · exact h4

theorem item_head (e : Env) (i : Item) (hi : i.Good e) (s : List Char) : ∃ c r, i.text ++ s = c :: r ∧ isGraph c = true ∧ c ≠ ',' ∧ c ≠ '=' := by
  cases i with
  | num w q n =>
    obtain ⟨⟨a, hm, -, -⟩, -⟩ := hi
    simp only [Item.text, List.append_assoc]
    exact word_head (fits hm).1 _
  | flag w on =>
    obtain ⟨f, hm⟩ := hi
    cases on
    · exact word_head (fits hm).2.1 s
    · exact word_head (fits hm).1 s
  | is w t =>
    obtain ⟨⟨f, hm⟩, -⟩ := hi
    simp only [Item.text, List.append_assoc]
    exact word_head (fits hm).1 _
  | trace w q t =>
    simp only [Item.text, List.append_assoc]
    exact word_head (fits hi.1).1 _

theorem item_follows (e : Env) (i : Item) (hi : i.Good e) (s : List Char) : Follows (i.text ++ s) := by
  obtain ⟨c, r, e, h1, h2, h3⟩ := item_head e i hi s
  rw [e]
  exact ⟨.inr ⟨c, r, rfl, h1, h2⟩, by simpa using h3⟩

theorem toInt_whole (x : ℚ) (h : |x| ≤ intMax) : toInt x = some (whole x) := by
  obtain ⟨h1, h2⟩ := abs_le.mp h
  have : -(intMax : ℤ) ≤ whole x ∧ whole x ≤ intMax := by
    unfold whole
    split
    · rename_i h0
      exact ⟨Int.le_floor.mpr (by push_cast; exact h1), Int.floor_le_iff.mpr (by push_cast; linarith)⟩
    · rename_i h0
      exact ⟨Int.le_ceil_iff.mpr (by push_cast; linarith), Int.ceil_le.mpr (by push_cast; exact h2)⟩
  have hw : whole x = if x < 0 then ⌈x⌉ else ⌊x⌋ := by
    unfold whole
    by_cases h0 : 0 ≤ x
    · rw [if_pos h0, if_neg (not_lt.mpr h0)]
    · rw [if_neg h0, if_pos (not_le.mp h0)]
  unfold toInt Opt.toInt
  simp only
  rw [← hw, if_pos ⟨by omega, this.2⟩]

theorem setPar_eq (st : St) (f : Field) (p : Param) : st.setPar f p = { st with par := fun g => if g = f then p else st.par g } := by
  unfold St.setPar
  congr 1
  funext g
  simp [Function.update_apply]

theorem setFlag_eq (st : St) (f : Flag) (b : Bool) : st.setFlag f b = { st with flag := fun g => if g = f then b else st.flag g } := by
  unfold St.setFlag
  congr 1
  funext g
  simp [Function.update_apply]

theorem tryAll_item (e : Env) (st : St) (i : Item) (hi : i.Good e) (t : List Char) (hf : Follows t) :
    tryAll e st (i.text ++ gap t) table = some (i.does e st, t) := by
  cases i with
  | num w q n =>
    obtain ⟨⟨a, hm, ha, haf, hai⟩, hn⟩ := hi
    obtain ⟨c, r, ec, -, h1, h2, h3⟩ := numeral_head n hn (gap t)
    have hx : (Item.num w q n).text ++ gap t = w ++ sepText q :: (n.text ++ gap t) := by simp [Item.text]
    rw [hx, tryAll_word e st w _ a hm (term_sep q _)]
    have hbh : behind a (sepText q :: (n.text ++ gap t)) = n.text ++ gap t := by rw [ec]; exact behind_num haf q c r h1 h2 h3
    rw [hbh]
    have hs := stops_gap t
    cases a with
    | flag f => exact absurd rfl (haf f)
    | trace => exact absurd rfl ha
    | par f => simp [Act.run, parse_numeral _ _ _ n hn _ hs, Item.does, hm, skipcom_gap hf, setPar_eq]
    | int f => simp [Act.run, number_numeral _ n hn _ hs, Item.does, hm, skipcom_gap hf, setPar_eq, toInt_whole _ (hai f rfl)]
    | dtemp => simp [Act.run, number_numeral _ n hn _ hs, Item.does, hm, skipcom_gap hf, add_comm]
    | temp => simp [Act.run, number_numeral _ n hn _ hs, Item.does, hm, skipcom_gap hf]
  | flag w on =>
    obtain ⟨f, hm⟩ := hi
    cases on
    · have := tryAll_no e st w (gap t) f hm (term_gap t)
      simp only [Item.text, Bool.false_eq_true, if_false, Item.does, hm]
      rw [this, skipcom_gap hf, setFlag_eq]
    · simp only [Item.text, if_true, List.nil_append, Item.does, hm]
      rw [tryAll_word e st w (gap t) _ hm (term_gap t)]
      have hbh : behind (.flag f) (gap t) = t := by simp only [behind]; rw [skipbl_gap hf, hf.next.skipcom]
      rw [hbh]
      have hsk : skip1b ['='] t = (false, t) := by
        rcases hf.next with rfl | ⟨c, r, rfl, h1, h2⟩
        · rfl
        · exact skip1b_miss _ _ _ h1 (by
            have h3 := hf.eq
            simp only [List.head?_cons, ne_eq, Option.some.injEq] at h3
            simpa using h3)
      simp only [Act.run, hsk, Bool.false_eq_true, if_false, setFlag_eq]
  | is w x =>
    obtain ⟨⟨f, hm⟩, hx⟩ := hi
    obtain ⟨hxw, z, hz, hch⟩ := bool_choice x hx
    have hxt : (Item.is w x).text ++ gap t = w ++ '=' :: (x ++ gap t) := by simp [Item.text]
    rw [hxt, tryAll_word e st w _ _ hm rfl]
    have hbh : behind (.flag f) ('=' :: (x ++ gap t)) = '=' :: (x ++ gap t) := by
      have h1 : skipbl ('=' :: (x ++ gap t)) = '=' :: (x ++ gap t) := skipbl_cons _ (by decide)
      simp only [behind]
      rw [h1]
      unfold skipcom
      rw [h1]
      rfl
    rw [hbh]
    have h3 : skip1b ['='] ('=' :: (x ++ gap t)) = (true, x ++ gap t) := by
      unfold skip1b
      rw [skipbl_cons _ (by decide)]
      simp [match1, hxw.skipbl]
    have h4 : Opt.ctob e.ci (x ++ gap t) = (decide (x ∈ Opt.yesWords), t) := by
      have := Opt.choose_name e.ci x (gap t) hxw (term_gap t) z Opt.boolWords Opt.bool_sound (hch e.ci)
      unfold Opt.ctob
      rw [hxw.skipbl, this]
      simp only [hz]
      rw [skipbl_gap hf, hf.next.skipcom, hf.next.skipcom]
    simp only [Act.run, h3, if_true, h4, Item.does, hm, setFlag_eq]
  | trace w q x =>
    obtain ⟨hm, hx⟩ := hi
    obtain ⟨y, hy⟩ := Option.ne_none_iff_exists'.mp hx
    obtain ⟨hxw, z, hz, hch⟩ := trace_choice x y hy
    obtain ⟨c, r, ec, h1, h2, h3⟩ := word_head hxw (gap t)
    have hxt : (Item.trace w q x).text ++ gap t = w ++ sepText q :: (x ++ gap t) := by simp [Item.text]
    rw [hxt, tryAll_word e st w _ _ hm (term_sep q _)]
    have hbh : behind .trace (sepText q :: (x ++ gap t)) = x ++ gap t := by rw [ec]; exact behind_num (by simp) q c r h1 h2 h3
    rw [hbh]
    have := Opt.choose_name e.ci x (gap t) hxw (term_gap t) z traceWords traceWords_sound (hch e.ci)
    simp only [Act.run, this, Item.does, hy, hz]
    rw [skipbl_gap hf, hf.next.skipcom]

/-! ## The loop -/

/-- text the loop leaves as it is -/
def Left (e : Env) (z : List Char) : Prop := ∀ st, tryAll e st z table = some (st, z)

theorem line_follows (e : Env) (z : List Char) (hz : Follows z) : ∀ (l : List Item), (∀ i ∈ l, i.Good e) → Follows (lineText l z)
  | [], _ => hz
  | i :: l, h => item_follows e i (h i (by simp)) _

theorem item_len (e : Env) (i : Item) (hi : i.Good e) : 0 < i.text.length := by
  obtain ⟨c, r, e, -⟩ := item_head e i hi []
  rw [List.append_nil] at e
  rw [e]
  simp

theorem line_len (e : Env) (z : List Char) : ∀ (l : List Item), (∀ i ∈ l, i.Good e) → l.length + z.length ≤ (lineText l z).length
  | [], _ => by simp [lineText]
  | i :: l, h => by
    have h1 := line_len e z l (fun j hj => h j (by simp [hj]))
    have h2 := item_len e i (h i (by simp))
    have h3 := gap_len (lineText l z)
    simp only [lineText, List.length_append, List.length_cons]
    omega

theorem loop_items (e : Env) (z : List Char) (hz : Follows z) (hq : Left e z) : ∀ (l : List Item) (n : ℕ) (st : St),
    (∀ i ∈ l, i.Good e) → l.length < n →
    loop e n st (lineText l z).length (lineText l z) = .done (l.foldl (Item.does e) st) z
  | _, 0, _, _, hn => by omega
  | [], n + 1, st, _, _ => by
    simp only [lineText, loop, hq st, hz.next.skipbl, List.foldl_nil]
    split
    · rename_i h; rw [h]
    · simp
  | i :: l, n + 1, st, h, hn => by
    have hl : ∀ j ∈ l, j.Good e := fun j hj => h j (by simp [hj])
    have hi := h i (by simp)
    have hf := line_follows e z hz l hl
    have h2 := item_len e i hi
    have h3 := gap_len (lineText l z)
    have h4 := line_len e z l hl
    rw [lineText, loop, tryAll_item e st i hi _ hf]
    simp only [hf.next.skipbl, List.foldl_cons]
    split
    · rename_i h0
      rw [h0] at h4
      simp only [List.length_nil, Nat.le_zero, Nat.add_eq_zero_iff, List.length_eq_zero_iff] at h4
      rw [h4.1, h4.2]
      rfl
    · have : (lineText l z).length < (i.text ++ gap (lineText l z)).length := by
        rw [List.length_append]; omega
      rw [if_pos this]
      exact loop_items e z hz hq l n _ hl (by simpa using hn)

/-- before the options: the temperature of the options, no flag but `plot` if there is something to plot, no trace -/
def clean (e : Env) (plotOn : Bool) (st : St) : St := { st with temp := e.optTemp, flag := fun g => decide (g = .plot) && plotOn, trace := .none }

theorem options_items (e : Env) (plotOn : Bool) (z : List Char) (hz : Follows z) (hq : Left e z) (l : List Item) (st : St)
    (h : ∀ i ∈ l, i.Good e) : options e plotOn st (lineText l z) = .done (l.foldl (Item.does e) (clean e plotOn st)) z := by
  have h4 := line_len e z l h
  have : clean e plotOn st = { st with temp := e.optTemp, flag := flags0 plotOn, trace := .none } := by
    unfold clean
    congr 1
    funext g
    cases g <;> simp [flags0]
  unfold options
  rw [← this]
  exact loop_items e z hz hq l _ _ h (by omega)

theorem loop_ends (e : Env) : ∀ (n : ℕ) (st : St) (here : ℕ) (s : List Char), here < n → loop e n st here s ≠ .running
  | 0, _, _, _, h => by omega
  | n + 1, st, here, s, h => by
    rw [loop]
    split
    · simp
    · split
      · simp
      · split
        · exact loop_ends e n _ _ _ (by omega)
        · simp

/-- **C92, the end of the options**: whatever the line, the loop over the options ends. -/
theorem options_ends (e : Env) (plotOn : Bool) (st : St) (s : List Char) : options e plotOn st s ≠ .running :=
  loop_ends e _ _ _ s (by omega)

/-! ## Text that is not for the options -/

/-- no word of the options, and not beginning with `no` and the letters a flag must have -/
structure Free (ci : Bool) (w : List Char) : Prop where
  word : Opt.Word w
  not : ∀ e ∈ names, ∀ s ∈ spelled e.1 e.2.1, ¬ Like ci w s
  no : ∀ e ∈ names, ∀ f, e.2.2 = .flag f → ∀ p, p <+: w → ¬ Like ci p (['n', 'o'] ++ e.1)

theorem written : table.map (fun x => (x.2, Opt.segsOf none (x.2.pattern x.1), Opt.segsOf none (['n', 'o'] ++ x.1))) =
    names.map (fun e => (e.2.2, e.1.map .lit ++ (optSeg e.2.1 ++ ending e.2.2), (['n', 'o'] ++ e.1).map .lit ++ optSeg e.2.1)) := by decide +kernel

theorem free_miss (ci : Bool) (w : List Char) (hw : Free ci w) (x : List Char × Act) (hx : x ∈ table) : miss ci w x = true := by
  have hm : (x.2, Opt.segsOf none (x.2.pattern x.1), Opt.segsOf none (['n', 'o'] ++ x.1)) ∈
      names.map (fun e => (e.2.2, e.1.map .lit ++ (optSeg e.2.1 ++ ending e.2.2), (['n', 'o'] ++ e.1).map .lit ++ optSeg e.2.1)) := by
    rw [← written]
    exact List.mem_map.mpr ⟨x, hx, rfl⟩
  obtain ⟨e, he, hq⟩ := List.mem_map.mp hm
  simp only [Prod.mk.injEq] at hq
  obtain ⟨q1, q2, q3⟩ := hq
  unfold miss
  have h1 : Opt.fails ci (Opt.segsOf none (x.2.pattern x.1)) w = true := by
    rw [← q2]
    by_contra hc
    obtain ⟨a, b, h1, h2, h3⟩ := fails_lits ci _ _ _ (Bool.eq_false_iff.mpr hc)
    have hdel : ∀ t, Opt.fails ci (ending e.2.2) t = false → t = [] := by
      intro t h
      cases t with
      | nil => rfl
      | cons d t => cases hh : e.2.2 <;> simp [hh, ending, Opt.fails] at h
    have hb : ∃ k, Like ci b (e.2.1.take k) := by
      unfold optSeg at h3
      split at h3
      · rw [List.nil_append] at h3
        rw [hdel _ h3]
        exact ⟨0, .nil⟩
      · simp only [List.cons_append, List.nil_append, Opt.fails] at h3
        exact optDrop_all ci _ _ (hdel _ h3)
    obtain ⟨k, hk⟩ := hb
    refine hw.not e he (e.1 ++ e.2.1.take k) ?_ ?_
    · exact List.mem_map.mpr ⟨_, by rw [List.mem_inits]; exact List.take_prefix _ _, rfl⟩
    · rw [h1]
      exact like_append h2 hk
  rw [h1, Bool.true_and]
  split
  · rename_i f hf
    rw [← q3]
    by_contra hc
    obtain ⟨a, b, h1, h2, -⟩ := fails_lits ci _ _ _ (Bool.eq_false_iff.mpr hc)
    exact hw.no e he f (by rw [q1, hf]) a ⟨b, h1.symm⟩ h2
  · rfl

theorem free_left (e : Env) (st : St) (w rest : List Char) (hw : Free e.ci w) (hr : isTerm rest = true) :
    tryAll e st (w ++ rest) table = some (st, e.outset (w ++ rest)) := by
  have := tryAll_misses e st w rest hw.word hr [] table (fun x hx => ⟨hx, free_miss e.ci w hw x hx⟩)
  rw [List.append_nil] at this
  rw [this, tryAll]

theorem names_ne : ∀ e ∈ names, e.1 ≠ [] := by decide +kernel

theorem nil_left (e : Env) (st : St) : tryAll e st [] table = some (st, e.outset []) := by
  have hm : ∀ l : List (List Char × Act), (∀ x ∈ l, x ∈ table) → tryAll e st [] l = some (st, e.outset []) := by
    intro l
    induction l with
    | nil => intro _; rfl
    | cons x l ih =>
      intro h
      obtain ⟨s1, s2⟩ := snd (h x (by simp))
      have hmm : (x.2, Opt.segsOf none (x.2.pattern x.1), Opt.segsOf none (['n', 'o'] ++ x.1)) ∈
          names.map (fun e => (e.2.2, e.1.map .lit ++ (optSeg e.2.1 ++ ending e.2.2), (['n', 'o'] ++ e.1).map .lit ++ optSeg e.2.1)) := by
        rw [← written]
        exact List.mem_map.mpr ⟨x, h x (by simp), rfl⟩
      obtain ⟨y, hy, hq⟩ := List.mem_map.mp hmm
      simp only [Prod.mk.injEq] at hq
      obtain ⟨q1, q2, q3⟩ := hq
      obtain ⟨c, m, hc⟩ := List.exists_cons_of_ne_nil (names_ne y hy)
      have u1 : umatch e.ci (x.2.pattern x.1) [] = .fail := by
        rw [Opt.umatch_sound _ _ _ s1, ← q2, hc]
        rfl
      have u2 : umatch e.ci (['n', 'o'] ++ x.1) [] = .fail := by
        rw [Opt.umatch_sound _ _ _ s2, ← q3]
        rfl
      have ih := ih (fun y hy => h y (by simp [hy]))
      obtain ⟨key, a⟩ := x
      cases a with
      | flag f => simp only at u1 u2; simp only [tryAll, u1, u2]; exact ih
      | _ => simp only at u1; simp only [tryAll, u1]; exact ih
  exact hm table (fun x hx => hx)

/-- What stands behind the options: nothing, or a word they do not know -/
inductive Tail (e : Env) : List Char → Prop
  | nil : e.outset [] = [] → Tail e []
  | word (w rest : List Char) : Free e.ci w → isTerm rest = true → e.outset (w ++ rest) = w ++ rest → Tail e (w ++ rest)

theorem Tail.follows {e : Env} {z : List Char} (h : Tail e z) : Follows z := by
  cases h with
  | nil => exact ⟨.inl rfl, by simp⟩
  | word w rest hw =>
    obtain ⟨c, r, ec, h1, h2, h3⟩ := word_head hw.word rest
    rw [ec]
    exact ⟨.inr ⟨c, r, rfl, h1, h2⟩, by simpa using h3⟩

theorem Tail.left {e : Env} {z : List Char} (h : Tail e z) : Left e z := by
  intro st
  cases h with
  | nil h => rw [nil_left, h]
  | word w rest hw hr ho => rw [free_left e st w rest hw hr, ho]

/-! ## TRANSIENT: numbers -/

/-- a number without a sign -/
def Plain (n : Numeral) : Prop := n.Wf ∧ n.sgn = none

theorem factor_pos (u : Units) (w : List Char) : 0 < factor u w := by
  have ht : ∀ y ∈ Num.table u, 0 < y.2 := by cases u <;> decide +kernel
  have : ∀ o : Option (List Char × ℚ), (∀ x, o = some x → 0 < x.2) → 0 < (o.map (·.2)).getD 1 := by
    rintro (_ | x) h
    · simp
    · simpa using h x rfl
  exact this _ fun x hx => ht x (List.mem_of_find?_eq_some hx)

theorem Plain.nonneg {n : Numeral} (h : Plain n) (u : Units) : 0 ≤ n.value u := by
  have hs : 0 < n.suf.factor u := by
    cases n.suf with
    | exp up s ds unit => exact zpow_pos (by norm_num) _
    | word w => exact factor_pos u w
  unfold Numeral.value
  rw [h.2]
  simp only [reduceCtorEq, if_false, one_mul]
  positivity

theorem Plain.isPArg {n : Numeral} (h : Plain n) (s : List Char) : isPArg (n.text ++ s) = true := by
  have hd : ∀ d, d < 10 → isDigit (dchar d) = true := isDigit_dchar
  obtain ⟨hw, hs⟩ := h
  unfold Numeral.text
  rw [hs]
  rcases hi : n.ip with _ | ⟨d, r⟩
  · rcases hdot : n.dot with _ | _
    · have := hw.frac hdot
      rcases hw.some_digit with h | h
      · exact absurd hi h
      · exact absurd this h
    · simp [sgnText, TranCmd.isPArg]
  · have := hd d (hw.ip d (by simp [hi]))
    simp [sgnText, TranCmd.isPArg, this]

/-! ## TRANSIENT: lines -/

/-- A line for the transient: up to four numbers, options, and what stands behind -/
structure Line where
  nums : List Numeral
  items : List Item
  rest : List Char

def Line.text (l : Line) : List Char := numsText l.nums (lineText l.items l.rest)

structure Line.Good (e : Env) (l : Line) : Prop where
  nums : l.nums.length ≤ 4 ∧ ∀ n ∈ l.nums, Plain n
  items : ∀ i ∈ l.items, i.Good e
  rest : Tail e l.rest
  /-- what stands directly behind less than four numbers is not another one -/
  stop : l.nums.length < 4 → l.items = [] → isPArg l.rest = false

/-- the options of a line as numbers: the last one of a kind counts -/
def Item.opt (u : Units) (o : TranSet.Opts ℚ) : Item → TranSet.Opts ℚ
  | .num w _ n =>
    match meant w with
    | some (.par .start) => { o with start := some (n.value u) }
    | some (.par .stop) => { o with stop := some (n.value u) }
    | some (.par .strobe) => { o with strobe := some (n.value u) }
    | some (.par .dtmax) => { o with dtmax := some (n.value u) }
    | some (.par .dtmin) => { o with dtmin := some (n.value u) }
    | some (.par .dtratio) => { o with dtratio := some (n.value u) }
    | some (.int .skip) => { o with skip := some (whole (n.value u)) }
    | _ => o
  | .flag w on => if meant w = some (.flag .cold) then { o with cold := on } else o
  | .is w t => if meant w = some (.flag .cold) then { o with cold := decide (t ∈ Opt.yesWords) } else o
  | .trace _ _ _ => o

def Line.opts (u : Units) (l : Line) : TranSet.Opts ℚ := l.items.foldl (Item.opt u) {}

/-- a kept parameter and a number: both given with the same value, or both not given -/
def Agree (env : List Char → ℚ) (ni : ℚ) (p : Param) (q : TranSet.Par ℚ) : Prop := hard p = q.hard ∧ (hard p = true → ∀ d, val env ni d p = q.v)

/-- what is kept from line to line agrees with the numbers `TranSetModel` keeps -/
structure Same (env : List Char → ℚ) (ni : ℚ) (st : St) (s : TranSet.St ℚ) : Prop where
  start : Agree env ni (st.par .start) s.start
  stop : Agree env ni (st.par .stop) s.stop
  strobe : Agree env ni (st.par .strobe) s.strobe
  dtmax : Agree env ni (st.par .dtmax) s.dtmaxIn
  dtmin : Agree env ni (st.par .dtmin) s.dtminIn
  dtratio : Agree env ni (st.par .dtratio) s.dtratioIn
  skip : Agree env ni (st.par .skip) s.skipIn

/-! ## TRANSIENT: reading the numbers -/

/-- what the numbers at the beginning do -/
def after (env : List Char → ℚ) (ni last : ℚ) (st : St) : List ℚ → Option St
  | [] => some (noArgs env ni last st)
  | [a] => args env ni last st (.num a) .unset .unset
  | [a, b] => args env ni last st (.num a) (.num b) .unset
  | [a, b, c] => args env ni last st (.num a) (.num b) (.num c)
  | a :: b :: c :: d :: _ => (args env ni last st (.num a) (.num b) (.num c)).map (·.setPar .dtmax (.num d))

theorem setPar_self (st : St) (f : Field) : st.setPar f (st.par f) = st := by simp [St.setPar]

theorem numbers_text (e : Env) (env : List Char → ℚ) (ni last : ℚ) (st : St) (l : List Numeral) (z : List Char) (hl : ∀ n ∈ l, Plain n) (hn : l.length ≤ 4)
    (hz : Follows z) (ha : l.length < 4 → isPArg z = false) (st' : St) (h : after env ni last st (l.map (·.value e.units)) = some st') :
    numbers e env ni last st (numsText l z) = some (some st', z) := by
  have hP : ∀ (n : Numeral) (old : Param) (t : List Char), Plain n → Follows t → parse e.units e.ci old (n.text ++ gap t) = some (.num (n.value e.units), t) := by
    intro n old t hn hf
    rw [parse_numeral _ _ _ n hn.1 _ (stops_gap t), skipcom_gap hf]
  match l, hl with
  | [], _ =>
    have hz' := ha (by simp)
    simp only [List.map_nil, after, Option.some.injEq] at h
    simp [numbers, next, numsText, hz', h, setPar_self]
  | [a], hl =>
    have h1 := hl a (by simp)
    have hz' := ha (by simp)
    simp only [List.map_cons, List.map_nil, after] at h
    simp [numbers, next, numsText, h1.isPArg, hP a _ z h1 hz, hz', h, setPar_self]
  | [a, b], hl =>
    have h1 := hl a (by simp)
    have h2 := hl b (by simp)
    have hz' := ha (by simp)
    have f2 := numeral_follows b h2.1 (gap z)
    simp only [List.map_cons, List.map_nil, after] at h
    simp [numbers, next, numsText, h1.isPArg, hP a _ _ h1 f2, h2.isPArg, hP b _ z h2 hz, hz', h, setPar_self]
  | [a, b, c], hl =>
    have h1 := hl a (by simp)
    have h2 := hl b (by simp)
    have h3 := hl c (by simp)
    have hz' := ha (by simp)
    have f2 := numeral_follows b h2.1 (gap (c.text ++ gap z))
    have f3 := numeral_follows c h3.1 (gap z)
    simp only [List.map_cons, List.map_nil, after] at h
    simp [numbers, next, numsText, h1.isPArg, hP a _ _ h1 f2, h2.isPArg, hP b _ _ h2 f3, h3.isPArg, hP c _ z h3 hz, hz', h, setPar_self]
  | [a, b, c, d], hl =>
    have h1 := hl a (by simp)
    have h2 := hl b (by simp)
    have h3 := hl c (by simp)
    have h4 := hl d (by simp)
    have f2 := numeral_follows b h2.1 (gap (c.text ++ gap (d.text ++ gap z)))
    have f3 := numeral_follows c h3.1 (gap (d.text ++ gap z))
    have f4 := numeral_follows d h4.1 (gap z)
    simp only [List.map_cons, List.map_nil, after, Option.map_eq_some_iff] at h
    obtain ⟨st1, h, rfl⟩ := h
    simp [numbers, next, numsText, h1.isPArg, hP a _ _ h1 f2, h2.isPArg, hP b _ _ h2 f3, h3.isPArg, hP c _ _ h3 f4, h4.isPArg, hP d _ z h4 hz, h]
  | a :: b :: c :: d :: x :: l, _ => simp at hn; omega

/-! ## TRANSIENT: the same as on numbers -/

theorem agree_set (env : List Char → ℚ) (ni x : ℚ) : Agree env ni (.num x) (.set x) := ⟨rfl, fun _ _ => rfl⟩

theorem agree_unset (env : List Char → ℚ) (ni x : ℚ) : Agree env ni .unset ⟨x, false⟩ := ⟨rfl, by simp [hard]⟩

theorem Agree.eval {env : List Char → ℚ} {ni : ℚ} {p : Param} {q : TranSet.Par ℚ} (h : Agree env ni p q) (d : ℚ) :
    q.eval d = ⟨val env ni d p, hard p⟩ := by
  obtain ⟨h1, h2⟩ := h
  unfold TranSet.Par.eval
  rw [← h1]
  rcases hh : hard p with _ | _
  · cases p <;> simp_all [hard, val]
  · rw [if_pos rfl, h2 hh d]
    cases q
    simp only at h1
    rw [← h1, hh]

theorem Agree.keep {env : List Char → ℚ} {ni : ℚ} {p : Param} {q : TranSet.Par ℚ} (h : Agree env ni p q) (d : ℚ) : Agree env ni p (q.eval d) := by
  rw [h.eval]
  refine ⟨rfl, fun hp x => ?_⟩
  cases p <;> simp_all [hard, val]

theorem parOf_eval (env : List Char → ℚ) (ni d : ℚ) (p : Param) : (parOf env ni p).eval d = ⟨val env ni d p, hard p⟩ := by
  cases p <;> simp [parOf, TranSet.Par.eval, hard, val]

@[simp] theorem val_num (env : List Char → ℚ) (ni d x : ℚ) : val env ni d (.num x) = x := rfl

theorem after_same (env : List Char → ℚ) (ni : ℚ) (st : St) (s : TranSet.St ℚ) (h : Same env ni st s) (h1 : s.start.v = val env ni ni (st.par .start))
    (h2 : s.stop.v = val env ni ni (st.par .stop)) (vs : List ℚ) (hv : ∀ v ∈ vs, 0 ≤ v) :
    ∃ st', after env ni s.last st vs = some st' ∧ Same env ni st' (TranSet.args s vs) := by
  have hset : ∀ (x : ℚ), Agree env ni (.num x) (.set x) := agree_set env ni
  have hun : ∀ (x : ℚ), Agree env ni .unset ⟨x, false⟩ := agree_unset env ni
  obtain ⟨a1, a2, a3, a4, a5, a6, a7⟩ := h
  match vs, hv with
  | [], _ =>
    refine ⟨_, rfl, ?_⟩
    constructor <;> simp_all [noArgs, TranSet.args, St.setPar, Function.update]
  | [a], hv =>
    have ha := hv a (by simp)
    simp only [after, args, hard, val_num, TranSet.args]
    by_cases c1 : a > s.last
    · simp only [c1, if_true]
      refine ⟨_, rfl, ?_⟩
      constructor <;> simp_all [St.setPar, Function.update]
    · by_cases c2 : a = 0
      · simp only [c1, c2, if_true, if_false]
        rw [c2] at c1
        simp only [c1, if_false]
        refine ⟨_, rfl, ?_⟩
        constructor <;> simp_all [St.setPar, Function.update]
      · have c3 : a > 0 := lt_of_le_of_ne ha (Ne.symm c2)
        simp only [c1, c2, c3, if_true, if_false]
        refine ⟨_, rfl, ?_⟩
        constructor <;> simp_all [St.set3, St.setPar, Function.update]
  | [a, b], _ =>
    simp only [after, args, hard, val_num, TranSet.args]
    by_cases c1 : a = 0
    · simp only [c1, if_true]
      refine ⟨_, rfl, ?_⟩
      constructor <;> simp_all [St.setPar, Function.update]
    · by_cases c2 : a ≥ b
      · simp only [c1, c2, if_true, if_false]
        refine ⟨_, rfl, ?_⟩
        constructor <;> simp_all [St.set3, St.setPar, Function.update]
      · simp only [c1, c2, if_true, if_false]
        refine ⟨_, rfl, ?_⟩
        constructor <;> simp_all [St.set3, St.setPar, Function.update]
  | [a, b, c], _ =>
    simp only [after, args, hard, val_num, TranSet.args]
    by_cases c1 : c = 0
    · simp only [c1]
      refine ⟨_, rfl, ?_⟩
      constructor <;> simp_all [St.set3, St.setPar, Function.update]
    · by_cases c2 : a = 0
      · simp only [c1, c2]
        refine ⟨_, rfl, ?_⟩
        constructor <;> simp_all [St.set3, St.setPar, Function.update]
      · by_cases c3 : a > c
        · simp only [c1, c2, c3]
          refine ⟨_, rfl, ?_⟩
          constructor <;> simp_all [St.set3, St.setPar, Function.update]
        · simp only [c1, c2, c3]
          refine ⟨_, rfl, ?_⟩
          constructor <;> simp_all [St.set3, St.setPar, Function.update]
  | a :: b :: c :: d :: l, _ =>
    simp only [after, args, hard, val_num, TranSet.args]
    by_cases c1 : c = 0
    · simp only [c1]
      refine ⟨_, rfl, ?_⟩
      constructor <;> simp_all [St.set3, St.setPar, Function.update]
    · by_cases c2 : a = 0
      · simp only [c1, c2]
        refine ⟨_, rfl, ?_⟩
        constructor <;> simp_all [St.set3, St.setPar, Function.update]
      · by_cases c3 : a > c
        · simp only [c1, c2, c3]
          refine ⟨_, rfl, ?_⟩
          constructor <;> simp_all [St.set3, St.setPar, Function.update]
        · simp only [c1, c2, c3]
          refine ⟨_, rfl, ?_⟩
          constructor <;> simp_all [St.set3, St.setPar, Function.update]

/-- options over the kept values -/
def overAll (s : TranSet.St ℚ) (o : TranSet.Opts ℚ) : TranSet.St ℚ :=
  { s with
    start := TranSet.over s.start o.start, stop := TranSet.over s.stop o.stop, strobe := TranSet.over s.strobe o.strobe,
    dtmaxIn := TranSet.over s.dtmaxIn o.dtmax, dtminIn := TranSet.over s.dtminIn o.dtmin,
    dtratioIn := TranSet.over s.dtratioIn o.dtratio, skipIn := TranSet.over s.skipIn o.skip }

theorem item_same (e : Env) (env : List Char → ℚ) (ni : ℚ) (st : St) (s : TranSet.St ℚ) (o : TranSet.Opts ℚ) (i : Item) (hi : i.Good e)
    (h : Same env ni st (overAll s o)) (hc : st.flag .cold = o.cold) :
    Same env ni (i.does e st) (overAll s (i.opt e.units o)) ∧ (i.does e st).flag .cold = (i.opt e.units o).cold := by
  have hset : ∀ (x : ℚ), Agree env ni (.num x) (.set x) := agree_set env ni
  cases i with
  | num w q n =>
    obtain ⟨⟨a, hm, ha, haf, -⟩, -⟩ := hi
    obtain ⟨a1, a2, a3, a4, a5, a6, a7⟩ := h
    have hmem := meant_words w a hm
    have hint : ∀ f, a = .int f → f = .skip := by
      rintro f rfl
      unfold meant at hm
      rw [Option.map_eq_some_iff] at hm
      obtain ⟨x, hx, hx2⟩ := hm
      have hall : ∀ x ∈ names, ∀ f, x.2.2 = .int f → f = .skip := by
        have : ∀ x ∈ names, (match x.2.2 with | .int f => decide (f = .skip) | _ => true) = true := by decide +kernel
        intro x hx f hf
        have := this x hx
        rw [hf] at this
        simpa using this
      exact hall x (List.mem_of_find?_eq_some hx) f hx2
    have hpar : a ≠ .par .skip := by
      rintro rfl
      unfold meant at hm
      rw [Option.map_eq_some_iff] at hm
      obtain ⟨x, hx, hx2⟩ := hm
      have hall : ∀ x ∈ names, x.2.2 ≠ .par .skip := by decide +kernel
      exact hall x (List.mem_of_find?_eq_some hx) hx2
    cases a with
    | flag f => exact absurd rfl (haf f)
    | trace => exact absurd rfl ha
    | dtemp => simp only [Item.does, Item.opt, hm]; exact ⟨⟨a1, a2, a3, a4, a5, a6, a7⟩, hc⟩
    | temp => simp only [Item.does, Item.opt, hm]; exact ⟨⟨a1, a2, a3, a4, a5, a6, a7⟩, hc⟩
    | int f =>
      cases hint f rfl
      simp only [Item.does, Item.opt, hm]
      refine ⟨?_, hc⟩
      constructor <;> simp_all [overAll, TranSet.over]
    | par f =>
      cases f with
      | skip => exact absurd rfl hpar
      | _ =>
        simp only [Item.does, Item.opt, hm]
        refine ⟨?_, hc⟩
        constructor <;> simp_all [overAll, TranSet.over]
  | flag w on =>
    obtain ⟨f, hm⟩ := hi
    obtain ⟨a1, a2, a3, a4, a5, a6, a7⟩ := h
    simp only [Item.does, Item.opt, hm, Option.some.injEq, Act.flag.injEq]
    by_cases hf : f = .cold
    · simp only [hf, if_true]
      exact ⟨⟨a1, a2, a3, a4, a5, a6, a7⟩, trivial⟩
    · simp only [hf, if_false]
      refine ⟨⟨a1, a2, a3, a4, a5, a6, a7⟩, ?_⟩
      rw [if_neg (fun h => hf h.symm)]
      exact hc
  | is w t =>
    obtain ⟨⟨f, hm⟩, -⟩ := hi
    obtain ⟨a1, a2, a3, a4, a5, a6, a7⟩ := h
    simp only [Item.does, Item.opt, hm, Option.some.injEq, Act.flag.injEq]
    by_cases hf : f = .cold
    · simp only [hf, if_true]
      exact ⟨⟨a1, a2, a3, a4, a5, a6, a7⟩, trivial⟩
    · simp only [hf, if_false]
      refine ⟨⟨a1, a2, a3, a4, a5, a6, a7⟩, ?_⟩
      rw [if_neg (fun h => hf h.symm)]
      exact hc
  | trace w q t =>
    obtain ⟨a1, a2, a3, a4, a5, a6, a7⟩ := h
    simp only [Item.does, Item.opt]
    split
    · exact ⟨⟨a1, a2, a3, a4, a5, a6, a7⟩, hc⟩
    · exact ⟨⟨a1, a2, a3, a4, a5, a6, a7⟩, hc⟩

theorem items_same (e : Env) (env : List Char → ℚ) (ni : ℚ) (s : TranSet.St ℚ) : ∀ (l : List Item) (st : St) (o : TranSet.Opts ℚ),
    (∀ i ∈ l, i.Good e) → Same env ni st (overAll s o) → st.flag .cold = o.cold →
    Same env ni (l.foldl (Item.does e) st) (overAll s (l.foldl (Item.opt e.units) o)) ∧
      (l.foldl (Item.does e) st).flag .cold = (l.foldl (Item.opt e.units) o).cold
  | [], _, _, _, h, hc => ⟨h, hc⟩
  | i :: l, st, o, hl, h, hc => by
    obtain ⟨h1, h2⟩ := item_same e env ni st s o i (hl i (by simp)) h hc
    exact items_same e env ni s l _ _ (fun j hj => hl j (by simp [hj])) h1 h2

/-- the run of `TranSet.finish` from what it looks at -/
def outRun (cold : Bool) (a b h m n q k : TranSet.Par ℚ) (ni last : ℚ) : Option (TranSet.Run ℚ) :=
  if a.v < 0 ∨ b.v ≤ a.v then none
  else
    let h := if h.v ≤ 0 then ⟨ni, false⟩ else h
    let h := h.eval (b.v - a.v)
    let fresh : Bool := cold || decide (a.v < last) || decide (last ≤ 0)
    let dtmax := if m.hard then m.v else if k.hard then h.v / k.v else min m.v h.v
    let dtmin := if n.hard then n.v else if q.hard then dtmax / q.v else max n.v (dtmax / q.v)
    some ⟨a.v, b.v, h.v, dtmax, dtmin, !fresh, if fresh then 0 else last⟩

theorem finish_snd (c : TranSet.Cfg ℚ) (cold : Bool) (s : TranSet.St ℚ) : (TranSet.finish c cold s).2 =
    outRun cold (s.start.eval 0) (s.stop.eval c.ni) (s.strobe.eval c.ni) s.dtmaxIn s.dtminIn s.dtratioIn s.skipIn c.ni s.last := by
  unfold TranSet.finish outRun
  simp only
  by_cases hb : (s.start.eval 0).v < 0 ∨ (s.stop.eval c.ni).v ≤ (s.start.eval 0).v
  · rw [if_pos hb, if_pos hb]
  · rw [if_neg hb, if_neg hb]

theorem finish_fst (c : TranSet.Cfg ℚ) (cold : Bool) (s : TranSet.St ℚ) : (TranSet.finish c cold s).1 = { s with
    start := s.start.eval 0, stop := s.stop.eval c.ni,
    strobe := if (TranSet.finish c cold s).2 = none then s.strobe
      else (if (s.strobe.eval c.ni).v ≤ 0 then ⟨c.ni, false⟩ else s.strobe.eval c.ni).eval ((s.stop.eval c.ni).v - (s.start.eval 0).v) } := by
  unfold TranSet.finish
  simp only
  by_cases hb : (s.start.eval 0).v < 0 ∨ (s.stop.eval c.ni).v ≤ (s.start.eval 0).v
  · rw [if_pos hb]
    simp
  · rw [if_neg hb]
    simp

theorem finish_same (env : List Char → ℚ) (c : TranSet.Cfg ℚ) (cold : Bool) (st : St) (s : TranSet.St ℚ) (o : TranSet.Opts ℚ)
    (h : Same env c.ni st (overAll s o)) :
    (TranSet.finish c cold (TranSet.options c {} (st.nums env c.ni s.last))).2 = (TranSet.finish c cold (TranSet.options c o s)).2 ∧
    (∀ r, (TranSet.finish c cold (TranSet.options c o s)).2 = some r →
      Same env c.ni (if val env c.ni c.ni (st.par .strobe) ≤ 0 then st.setPar .strobe .unset else st) (TranSet.finish c cold (TranSet.options c o s)).1) ∧
    ((TranSet.finish c cold (TranSet.options c o s)).2 = none → Same env c.ni st (TranSet.finish c cold (TranSet.options c o s)).1) := by
  obtain ⟨a1, a2, a3, a4, a5, a6, a7⟩ := h
  simp only [overAll] at a1 a2 a3 a4 a5 a6 a7
  have b1 : (TranSet.options c o s).start = TranSet.over s.start o.start := rfl
  have b2 : (TranSet.options c o s).stop = TranSet.over s.stop o.stop := rfl
  have b3 : (TranSet.options c o s).strobe = TranSet.over s.strobe o.strobe := rfl
  have b4 : (TranSet.options c o s).dtmaxIn = (TranSet.over s.dtmaxIn o.dtmax).eval c.big := rfl
  have b5 : (TranSet.options c o s).dtminIn = (TranSet.over s.dtminIn o.dtmin).eval c.dtmin := rfl
  have b6 : (TranSet.options c o s).dtratioIn = (TranSet.over s.dtratioIn o.dtratio).eval c.dtratio := rfl
  have b7 : (TranSet.options c o s).skipIn = (TranSet.over s.skipIn o.skip).eval 1 := rfl
  refine ⟨?_, ?_, ?_⟩
  · rw [finish_snd, finish_snd, b1, b2, b3, b4, b5, b6, b7, a1.eval, a2.eval, a3.eval, a4.eval, a5.eval, a6.eval, a7.eval]
    simp only [TranSet.options, St.nums, TranSet.over, parOf_eval]
  · intro r hr
    have hst := a3.eval c.ni
    rw [finish_fst, hr, if_neg (c := some r = none) (by simp), b1, b2, b3]
    have hx : ((TranSet.over s.strobe o.strobe).eval c.ni).v = val env c.ni c.ni (st.par .strobe) := by rw [hst]
    rw [hx]
    by_cases hle : val env c.ni c.ni (st.par .strobe) ≤ 0
    · rw [if_pos hle, if_pos hle]
      refine ⟨?_, ?_, ?_, ?_, ?_, ?_, ?_⟩
      · exact a1.keep 0
      · exact a2.keep _
      · simp only [St.setPar, Function.update_self, TranSet.Par.eval]
        exact agree_unset _ _ _
      · exact a4.keep _
      · exact a5.keep _
      · exact a6.keep _
      · exact a7.keep _
    · rw [if_neg hle, if_neg hle]
      refine ⟨?_, ?_, ?_, ?_, ?_, ?_, ?_⟩
      · exact a1.keep 0
      · exact a2.keep _
      · exact (a3.keep _).keep _
      · exact a4.keep _
      · exact a5.keep _
      · exact a6.keep _
      · exact a7.keep _
  · intro hr
    rw [finish_fst, hr, if_pos rfl, b1, b2, b3]
    exact ⟨a1.keep 0, a2.keep _, a3, a4.keep _, a5.keep _, a6.keep _, a7.keep _⟩

theorem item_parg (e : Env) (i : Item) (hi : i.Good e) (s : List Char) : isPArg (i.text ++ s) = false := by
  have happ : ∀ w : List Char, w ≠ [] → ∀ t, isPArg (w ++ t) = isPArg w := by
    intro w hw t
    obtain ⟨c, r, rfl⟩ := List.exists_cons_of_ne_nil hw
    rfl
  cases i with
  | num w q n =>
    obtain ⟨⟨a, hm, -, -⟩, -⟩ := hi
    simp only [Item.text, List.append_assoc]
    rw [happ w (fits hm).1.1, (fits hm).2.2.1.2]
  | flag w on =>
    obtain ⟨f, hm⟩ := hi
    cases on
    · rfl
    · simp only [Item.text, if_true, List.nil_append]
      rw [happ w (fits hm).1.1, (fits hm).2.2.1.2]
  | is w t =>
    obtain ⟨⟨f, hm⟩, -⟩ := hi
    simp only [Item.text, List.append_assoc]
    rw [happ w (fits hm).1.1, (fits hm).2.2.1.2]
  | trace w q t =>
    simp only [Item.text, List.append_assoc]
    rw [happ w (fits hi.1).1.1, (fits hi.1).2.2.1.2]

/-- **C92, the line of the transient**: read from its text, it does what its numbers and its options do (`TranSet.setup`, C55): the same run,
or the same error, and what is kept agrees again.  Nothing else happens: no assertion, no undefined behaviour.  The temperature, the
flags and the trace are those of the items alone. -/
theorem tran_line (e : Env) (env : List Char → ℚ) (c : TranSet.Cfg ℚ) (first plotOn : Bool) (st : St) (s : TranSet.St ℚ) (hs : Same env c.ni st s)
    (l : Line) (h : l.Good e) : ∃ st', Same env c.ni st' (TranSet.setup c first (l.nums.map (·.value e.units)) (l.opts e.units) s).1 ∧
      (tran e env c first plotOn s.last st l.text =
        match (TranSet.setup c first (l.nums.map (·.value e.units)) (l.opts e.units) s).2 with
        | some r => .run st' r l.rest
        | none => .bad st' l.rest) ∧
      st'.temp = (l.items.foldl (Item.does e) (clean e plotOn st)).temp ∧ st'.flag = (l.items.foldl (Item.does e) (clean e plotOn st)).flag ∧
      st'.trace = (l.items.foldl (Item.does e) (clean e plotOn st)).trace := by
  have hz := h.rest.follows
  have hf := line_follows e l.rest hz l.items h.items
  have hs0 : Same env c.ni st (TranSet.prepare c first s) := ⟨hs.start.keep _, hs.stop.keep _, hs.strobe.keep _, hs.dtmax, hs.dtmin, hs.dtratio, hs.skip⟩
  have hv : ∀ v ∈ l.nums.map (·.value e.units), 0 ≤ v := by
    intro v hv
    obtain ⟨n, hn, rfl⟩ := List.mem_map.mp hv
    exact (h.nums.2 n hn).nonneg _
  obtain ⟨st1, e1, s1⟩ := after_same env c.ni st (TranSet.prepare c first s) hs0 (by simp [TranSet.prepare, hs.start.eval])
    (by simp [TranSet.prepare, hs.stop.eval]) _ hv
  have hlast : (TranSet.prepare c first s).last = if first then 0 else s.last := rfl
  have hnum := numbers_text e env c.ni _ st l.nums (lineText l.items l.rest) h.nums.2 h.nums.1 hf (by
    intro hlt
    rcases hi : l.items with _ | ⟨i, r⟩
    · exact h.stop hlt hi
    · exact item_parg e i (h.items i (by simp [hi])) _) st1 e1
  have hopt := options_items e plotOn l.rest hz h.rest.left l.items st1 h.items
  have hs2 : Same env c.ni (clean e plotOn st1) (overAll (TranSet.args (TranSet.prepare c first s) (l.nums.map (·.value e.units))) {}) := by
    obtain ⟨a1, a2, a3, a4, a5, a6, a7⟩ := s1
    exact ⟨a1, a2, a3, a4, a5, a6, a7⟩
  obtain ⟨s3, c3⟩ := items_same e env c.ni _ l.items (clean e plotOn st1) {} h.items hs2 rfl
  have hargl : (TranSet.args (TranSet.prepare c first s) (l.nums.map (·.value e.units))).last = if first then 0 else s.last := by
    rw [(TranSet.args_fields _ _).2.2.2]
    rfl
  obtain ⟨f1, f2, f3⟩ := finish_same env c (l.opts e.units).cold _ _ _ s3
  rw [hargl] at f1
  have hother : ∀ (l : List Item) (a b : St), a.temp = b.temp → a.flag = b.flag → a.trace = b.trace →
      (l.foldl (Item.does e) a).temp = (l.foldl (Item.does e) b).temp ∧ (l.foldl (Item.does e) a).flag = (l.foldl (Item.does e) b).flag ∧
      (l.foldl (Item.does e) a).trace = (l.foldl (Item.does e) b).trace := by
    intro l
    induction l with
    | nil => intro a b h1 h2 h3; exact ⟨h1, h2, h3⟩
    | cons i l ih =>
      intro a b h1 h2 h3
      refine ih _ _ ?_ ?_ ?_
      · cases i <;> simp only [Item.does] <;> split <;> simp [h1]
      · cases i <;> simp only [Item.does] <;> split <;> simp [h2]
      · cases i <;> simp only [Item.does] <;> split <;> simp [h3]
  obtain ⟨o1, o2, o3⟩ := hother l.items (clean e plotOn st1) (clean e plotOn st) rfl rfl rfl
  have hrun : tran e env c first plotOn s.last st l.text =
      match (TranSet.setup c first (l.nums.map (·.value e.units)) (l.opts e.units) s).2 with
      | none => .bad (l.items.foldl (Item.does e) (clean e plotOn st1)) l.rest
      | some r => .run (if val env c.ni c.ni ((l.items.foldl (Item.does e) (clean e plotOn st1)).par .strobe) ≤ 0
          then (l.items.foldl (Item.does e) (clean e plotOn st1)).setPar .strobe .unset else l.items.foldl (Item.does e) (clean e plotOn st1)) r l.rest := by
    unfold tran Line.text
    simp only
    rw [hlast] at hnum
    rw [hnum]
    simp only [hopt]
    rw [c3]
    have hco : (List.foldl (Item.opt e.units) {} l.items).cold = (l.opts e.units).cold := rfl
    rw [hco, f1]
    rfl
  unfold TranSet.setup at hrun ⊢
  rw [hrun]
  have hoo : List.foldl (Item.opt e.units) {} l.items = l.opts e.units := rfl
  rw [hoo] at f2 f3
  rcases hr : (TranSet.finish c (l.opts e.units).cold (TranSet.options c (l.opts e.units)
      (TranSet.args (TranSet.prepare c first s) (l.nums.map (·.value e.units))))).2 with _ | r
  · exact ⟨_, f3 hr, by rw [hr], o1, o2, o3⟩
  · refine ⟨_, f2 r hr, by rw [hr], ?_, ?_, ?_⟩
    · split <;> exact o1
    · split <;> exact o2
    · split <;> exact o3

/-- **C92, numbers alone**: what C55 says of the numbers (`three_spice`, `three_logical`, `two_spice`, `two_logical`) holds of the text. -/
theorem tran_gives (e : Env) (env : List Char → ℚ) (c : TranSet.Cfg ℚ) (first plotOn : Bool) (st : St) (s : TranSet.St ℚ) (hs : Same env c.ni st s)
    (ns : List Numeral) (hn : ns.length ≤ 4) (hp : ∀ n ∈ ns, Plain n) (ho : e.outset [] = []) (w : TranSet.Want ℚ)
    (hw : TranSet.gives c first (ns.map (·.value e.units)) s w) :
    ∃ st' r, tran e env c first plotOn s.last st (numsText ns []) = .run st' r [] ∧ r.start = w.a ∧ r.stop = w.b ∧ r.strobe = w.h := by
  obtain ⟨st', -, h, -⟩ := tran_line e env c first plotOn st s hs ⟨ns, [], []⟩ ⟨⟨hn, hp⟩, by simp, .nil ho, fun _ _ => rfl⟩
  obtain ⟨s', r, e1, e2⟩ := hw
  have h' : tran e env c first plotOn s.last st (numsText ns []) =
      match (TranSet.setup c first (ns.map (·.value e.units)) {} s).2 with
      | some r => .run st' r []
      | none => .bad st' [] := h
  rw [e1] at h'
  exact ⟨st', r, h', e2⟩

/-! ## TRANSIENT: one line after the other -/

/-- lines one after the other, the first of them on a new circuit; a run that is not refused reaches its stop time -/
def session (e : Env) (env : List Char → ℚ) (c : TranSet.Cfg ℚ) (plotOn : Bool) : Bool → ℚ → St → List (List Char) → List (Option (TranSet.Run ℚ))
  | _, _, _, [] => []
  | first, last, st, s :: l =>
    match tran e env c first plotOn last st s with
    | .run st' r _ => some r :: session e env c plotOn false r.stop st' l
    | .bad st' _ => none :: session e env c plotOn false (if first then 0 else last) st' l
    | _ => []

/-- the same on numbers -/
def sessionN (c : TranSet.Cfg ℚ) : Bool → TranSet.St ℚ → List (List ℚ × TranSet.Opts ℚ) → List (Option (TranSet.Run ℚ))
  | _, _, [] => []
  | first, s, (ns, o) :: l =>
    let x := TranSet.setup c first ns o s
    match x.2 with
    | some r => some r :: sessionN c false { x.1 with last := r.stop } l
    | none => none :: sessionN c false x.1 l

theorem Same.last {env : List Char → ℚ} {ni : ℚ} {st : St} {s : TranSet.St ℚ} (h : Same env ni st s) (t : ℚ) : Same env ni st { s with last := t } := by
  obtain ⟨a1, a2, a3, a4, a5, a6, a7⟩ := h
  exact ⟨a1, a2, a3, a4, a5, a6, a7⟩

/-- **C92, a session**: any number of lines, one after the other, does what their numbers do. -/
theorem tran_session (e : Env) (env : List Char → ℚ) (c : TranSet.Cfg ℚ) (plotOn : Bool) : ∀ (l : List Line) (first : Bool) (st : St) (s : TranSet.St ℚ),
    Same env c.ni st s → (∀ x ∈ l, x.Good e) →
    session e env c plotOn first s.last st (l.map Line.text) =
      sessionN c first s (l.map fun x => (x.nums.map (·.value e.units), x.opts e.units))
  | [], _, _, _, _, _ => rfl
  | x :: l, first, st, s, hs, hl => by
    obtain ⟨st', h1, h2, -⟩ := tran_line e env c first plotOn st s hs x (hl x (by simp))
    have hlast : (TranSet.setup c first (x.nums.map (·.value e.units)) (x.opts e.units) s).1.last = if first then 0 else s.last := by
      unfold TranSet.setup
      rw [finish_fst]
      simp only [TranSet.options]
      rw [(TranSet.args_fields _ _).2.2.2]
      rfl
    simp only [List.map_cons, session, sessionN]
    rw [h2]
    generalize TranSet.setup c first (x.nums.map (·.value e.units)) (x.opts e.units) s = X at h1 hlast
    obtain ⟨s', o⟩ := X
    simp only at h1 hlast ⊢
    have hl' : ∀ y ∈ l, y.Good e := fun y hy => hl y (by simp [hy])
    cases o with
    | none =>
      have ih := tran_session e env c plotOn l false st' s' h1 hl'
      rw [hlast] at ih
      simp only [ih]
    | some r =>
      have ih := tran_session e env c plotOn l false st' { s' with last := r.stop } (h1.last _) hl'
      simp only at ih
      simp only [ih]

/-! ## TRANSIENT: numbers that are not read -/

/-- the characters numbers begin with -/
def floats : List Char := ['0', '1', '2', '3', '4', '5', '6', '7', '8', '9', '.', '+', '-']

theorem float_mem {c : Char} (h : isFloat c = true) : c ∈ floats := by
  simp only [isFloat, Bool.or_eq_true, beq_iff_eq] at h
  rcases h with ((h | rfl) | rfl) | rfl
  · simp only [isDigit, Bool.and_eq_true, decide_eq_true_eq] at h
    have hc : c = Char.ofNat c.toNat := by simp
    obtain ⟨k, hk⟩ : ∃ k, c.toNat = k := ⟨_, rfl⟩
    rw [hk] at h hc
    obtain ⟨h1, h2⟩ := h
    subst hc
    interval_cases k <;> decide
  all_goals decide

theorem floats_not : ∀ c ∈ floats, (eqc false c 'n' = false ∧ eqc true c 'n' = false) ∧
    ∀ e ∈ names, (e.1.head?.any fun x => !eqc false c x && !eqc true c x) = true := by decide +kernel

/-- a word that begins like a number is none of the options -/
theorem free_number {ci : Bool} {c : Char} {r : List Char} (hc : isFloat c = true) (hw : Opt.Word (c :: r)) : Free ci (c :: r) := by
  obtain ⟨hn, hx⟩ := floats_not c (float_mem hc)
  refine ⟨hw, ?_, ?_⟩
  · intro e he s hs hl
    have := hx e he
    obtain ⟨p, -, rfl⟩ := List.mem_map.mp hs
    rcases h1 : e.1 with _ | ⟨x, m⟩
    · rw [h1] at this; simp at this
    · rw [h1] at this hl
      simp only [List.head?_cons, Option.any_some, Bool.and_eq_true, Bool.not_eq_true'] at this
      cases hl with
      | cons h _ => cases ci <;> simp_all
  · intro e _ f _ p hp hl
    cases p with
    | nil => cases hl
    | cons d q =>
      obtain ⟨t, ht⟩ := hp
      cases ht
      cases hl with
      | cons h _ => cases ci <;> simp_all

/-- **C92 does not hold for numbers with a sign**: a line that begins with one is read as a line without numbers — after a run from `a` to
`b` it runs on from `b`, as long as before, whatever was written (all that is said is the warning about the rest). -/
theorem tran_signed_wrong (e : Env) (env : List Char → ℚ) (c : TranSet.Cfg ℚ) (plotOn : Bool) (st : St) (s : TranSet.St ℚ) (hs : Same env c.ni st s)
    (a b : ℚ) (h1 : s.start = .set a) (h2 : s.stop = .set b) (h3 : s.last = b) (ha : 0 ≤ a) (hab : a < b)
    (x : Char) (r rest : List Char) (hx : x = '+' ∨ x = '-') (hw : Opt.Word (x :: r)) (ht : isTerm rest = true) (ho : e.outset (x :: r ++ rest) = x :: r ++ rest) :
    ∃ st' run, tran e env c false plotOn b st (x :: r ++ rest) = .run st' run (x :: r ++ rest) ∧ run.start = b ∧ run.stop = b + (b - a) := by
  have hf : isFloat x = true := by rcases hx with rfl | rfl <;> decide
  have hg : Line.Good e ⟨[], [], x :: r ++ rest⟩ := by
    refine ⟨⟨by simp, by simp⟩, by simp, .word _ _ (free_number hf hw) ht ho, ?_⟩
    intro _ _
    rcases hx with rfl | rfl <;> rfl
  obtain ⟨st', -, h, -⟩ := tran_line e env c false plotOn st s hs ⟨[], [], x :: r ++ rest⟩ hg
  simp only [Line.text, numsText, lineText, Line.opts, List.map_nil, List.foldl_nil] at h
  rw [h3] at h
  rw [h]
  have q1 : (TranSet.options c {} (TranSet.args (TranSet.prepare c false s) [])).start = .set b := by
    simp [TranSet.options, TranSet.over, TranSet.args, TranSet.prepare, h3]
  have q2 : (TranSet.options c {} (TranSet.args (TranSet.prepare c false s) [])).stop = .set (b + (b - a)) := by
    simp [TranSet.options, TranSet.over, TranSet.args, TranSet.prepare, h1, h2, h3, TranSet.Par.eval, TranSet.Par.set]
  obtain ⟨s', run, e1, -⟩ := TranSet.finish_ok c false (TranSet.options c {} (TranSet.args (TranSet.prepare c false s) []))
    (by rw [q1]; simp only [TranSet.Par.eval, TranSet.Par.set, if_true]; linarith)
    (by rw [q1, q2]; simp only [TranSet.Par.eval, TranSet.Par.set, if_true]; linarith)
  obtain ⟨-, -, -, g1, g2, -⟩ := TranSet.finish_some e1
  have : TranSet.setup c false [] {} s = (s', some run) := e1
  rw [this]
  refine ⟨st', run, rfl, ?_, ?_⟩
  · rw [g1, q1]; rfl
  · rw [g2, q2]; rfl

/-- A fifth number is not looked at: the run is that of the first four (and the warning). -/
theorem tran_fifth (e : Env) (env : List Char → ℚ) (c : TranSet.Cfg ℚ) (first plotOn : Bool) (st : St) (s : TranSet.St ℚ) (hs : Same env c.ni st s)
    (n1 n2 n3 n4 n5 : Numeral) (p1 : Plain n1) (p2 : Plain n2) (p3 : Plain n3) (p4 : Plain n4) (p5 : Plain n5) (hw : Opt.Word n5.text)
    (rest : List Char) (ht : isTerm rest = true) (ho : e.outset (n5.text ++ rest) = n5.text ++ rest) :
    ∃ st', tran e env c first plotOn s.last st (numsText [n1, n2, n3, n4] (n5.text ++ rest)) =
      match (TranSet.setup c first [n1.value e.units, n2.value e.units, n3.value e.units, n4.value e.units] {} s).2 with
      | some r => .run st' r (n5.text ++ rest)
      | none => .bad st' (n5.text ++ rest) := by
  obtain ⟨x, r, hx, hf⟩ := n5.head p5.1 []
  rw [List.append_nil] at hx
  have hg : Line.Good e ⟨[n1, n2, n3, n4], [], n5.text ++ rest⟩ := by
    refine ⟨⟨by simp, ?_⟩, by simp, ?_, by simp⟩
    · intro n hn
      simp only [List.mem_cons, List.not_mem_nil, or_false] at hn
      rcases hn with rfl | rfl | rfl | rfl <;> assumption
    · refine .word _ _ ?_ ht ho
      rw [hx] at hw ⊢
      exact free_number hf hw
  obtain ⟨st', -, h, -⟩ := tran_line e env c first plotOn st s hs ⟨[n1, n2, n3, n4], [], n5.text ++ rest⟩ hg
  exact ⟨st', h⟩

/-! ## FOURIER -/

/-- A line for FOURIER: up to three numbers, only the first of them without a sign; options; what stands behind -/
structure Line.FoGood (e : Env) (l : Line) : Prop where
  nums : l.nums.length ≤ 3 ∧ (∀ n ∈ l.nums, n.Wf) ∧ ∀ n, l.nums.head? = some n → Plain n
  items : ∀ i ∈ l.items, i.Good e
  rest : Tail e l.rest
  stop : l.nums.length < 3 → l.items = [] → isArg l.rest = false

/-- what the numbers mean: start, stop and step; the greater of two is the stop, the other the step; one is the step, 0 the start -/
def Fo.does (f : Fo) : List ℚ → Fo
  | [] => f
  | [a] => if a = 0 then { f with fstart := .num 0 } else ⟨.unset, .unset, .num a⟩
  | [a, b] => ⟨.unset, .num (max a b), .num (min a b)⟩
  | a :: b :: c :: _ => ⟨.num a, .num b, .num c⟩

theorem item_arg (e : Env) (i : Item) (hi : i.Good e) (s : List Char) : isArg (i.text ++ s) = false := by
  have happ : ∀ w : List Char, w ≠ [] → ∀ t, isArg (w ++ t) = isArg w := by
    intro w hw t
    obtain ⟨c, r, rfl⟩ := List.exists_cons_of_ne_nil hw
    rfl
  cases i with
  | num w q n =>
    obtain ⟨⟨a, hm, -, -⟩, -⟩ := hi
    simp only [Item.text, List.append_assoc]
    rw [happ w (fits hm).1.1, (fits hm).2.2.1.1]
  | flag w on =>
    obtain ⟨f, hm⟩ := hi
    cases on
    · rfl
    · simp only [Item.text, if_true, List.nil_append]
      rw [happ w (fits hm).1.1, (fits hm).2.2.1.1]
  | is w t =>
    obtain ⟨⟨f, hm⟩, -⟩ := hi
    simp only [Item.text, List.append_assoc]
    rw [happ w (fits hm).1.1, (fits hm).2.2.1.1]
  | trace w q t =>
    simp only [Item.text, List.append_assoc]
    rw [happ w (fits hi.1).1.1, (fits hi.1).2.2.1.1]

theorem parg_arg (s : List Char) (h : isArg s = false) : isPArg s = false := by
  cases s with
  | nil => rfl
  | cons c r => simp_all [isArg, isPArg, isFloat]

theorem foNumbers_text (e : Env) (env : List Char → ℚ) (ni : ℚ) (f : Fo) (l : List Numeral) (z : List Char) (hl : ∀ n ∈ l, n.Wf)
    (hp : ∀ n, l.head? = some n → Plain n) (hn : l.length ≤ 3) (hz : Follows z) (ha : l.length < 3 → isArg z = false) :
    foNumbers e env ni f (numsText l z) = some (some (f.does (l.map (·.value e.units))), z) := by
  have hA : ∀ (n : Numeral), n.Wf → ∀ s, isArg (n.text ++ s) = true := by
    intro n hn s
    obtain ⟨c, r, e, h, -⟩ := numeral_head n hn s
    rw [e]
    exact isArg_float h r
  have hP : ∀ (n : Numeral) (old : Param) (t : List Char), n.Wf → Follows t → parse e.units e.ci old (n.text ++ gap t) = some (.num (n.value e.units), t) := by
    intro n old t hn hf
    rw [parse_numeral _ _ _ n hn _ (stops_gap t), skipcom_gap hf]
  match l, hl with
  | [], _ =>
    have := parg_arg z (ha (by simp))
    simp [foNumbers, numsText, Fo.does, this]
  | [a], h =>
    have h1 := h a (by simp)
    have hza := ha (by simp)
    have h0 := hp a rfl
    by_cases hv : a.value e.units = 0 <;> simp [foNumbers, next, numsText, Fo.does, h0.isPArg, hP a _ z h1 hz, hza, foArgs, hard, hv]
  | [a, b], h =>
    have h1 := h a (by simp)
    have h2 := h b (by simp)
    have hza := ha (by simp)
    have h0 := hp a rfl
    have hf := numeral_follows b h2 (gap z)
    by_cases hab : b.value e.units ≤ a.value e.units
    · simp [foNumbers, next, numsText, Fo.does, h0.isPArg, hP a _ _ h1 hf, hA b h2, hP b _ z h2 hz, hza, foArgs, hard, hab]
    · have hlt := (not_le.mp hab).le
      simp [foNumbers, next, numsText, Fo.does, h0.isPArg, hP a _ _ h1 hf, hA b h2, hP b _ z h2 hz, hza, foArgs, hard, hab, hlt]
  | [a, b, c], h =>
    have h1 := h a (by simp)
    have h2 := h b (by simp)
    have h3 := h c (by simp)
    have h0 := hp a rfl
    have hf := numeral_follows b h2 (gap (c.text ++ gap z))
    have hg := numeral_follows c h3 (gap z)
    simp [foNumbers, next, numsText, Fo.does, h0.isPArg, hP a _ _ h1 hf, hA b h2, hP b _ _ h2 hg, hA c h3, hP c _ z h3 hz, foArgs, hard]
  | a :: b :: c :: d :: l, _ => simp at hn; omega

theorem pow2_spec (x : ℕ) : ∀ y, ∃ k, pow2 x y = 2 ^ k * y ∧ x < 2 ^ k ∧ (k = 0 ∨ 2 ^ k ≤ 2 * x) := by
  induction x using Nat.strong_induction_on with
  | _ x ih =>
    intro y
    rw [pow2]
    by_cases hx : 0 < x
    · rw [if_pos hx]
      obtain ⟨k, h1, h2, h3⟩ := ih (x / 2) (by omega) (2 * y)
      refine ⟨k + 1, by rw [h1]; ring, by rw [pow_succ]; omega, .inr ?_⟩
      rw [pow_succ]
      rcases h3 with rfl | h3
      · simp; omega
      · omega
    · rw [if_neg hx]
      exact ⟨0, by simp, by simp; omega, .inl rfl⟩

/-- What a run of FOURIER should be, from the frequencies: one period of the step frequency, after the last run or from 0; so many points that
the stop frequency is below half of the sampling rate, a power of 2 and not more than needed; steps not longer than a share of the sampling period -/
structure FoRun.Is (env : List Char → ℚ) (c : TranSet.Cfg ℚ) (harmonics last : ℚ) (f : Fo) (cold : Bool) (par : Field → Param) (r : FoRun) : Prop where
  fstart : r.fstart = val env c.ni 0 f.fstart
  fstep : r.fstep = val env c.ni 0 f.fstep
  fstop : r.fstop = if val env c.ni 0 f.fstop = 0 then harmonics * r.fstep else val env c.ni 0 f.fstop
  period : (r.stop - r.start) * r.fstep = 1
  sampled : r.strobe * r.points = r.stop - r.start
  begins : r.start = if cold = false ∧ 0 < last then last else 0
  cont : r.cont = true ↔ cold = false ∧ 0 < last
  power : ∃ k, r.points = 2 ^ k
  enough : 0 < r.fstep → 2 * r.fstop < r.points * r.fstep
  few : 0 < r.fstep → r.fstep ≤ 2 * r.fstop → r.points * r.fstep ≤ 4 * r.fstop
  dtmax : r.dtmax = min (val env c.ni c.big (par .dtmax)) (r.strobe / val env c.ni 1 (par .skip))
  dtmin : r.dtmin = if hard (par .dtmin) then val env c.ni 0 (par .dtmin)
    else if hard (par .dtratio) then r.dtmax / val env c.ni 0 (par .dtratio) else max c.dtmin (r.dtmax / c.dtratio)

theorem foRun_is (env : List Char → ℚ) (c : TranSet.Cfg ℚ) (harmonics last : ℚ) (f : Fo) (st : St) (h : val env c.ni 0 f.fstep ≠ 0) :
    ∃ r, foRun env c harmonics last f st = some r ∧ r.Is env c harmonics last f (st.flag .cold) st.par := by
  refine ⟨_, by unfold foRun; simp only; rw [if_neg h], ?_⟩
  have hv : ∀ d : ℚ, (if val env c.ni d f.fstop = 0 then d else val env c.ni d f.fstop) = if val env c.ni 0 f.fstop = 0 then d else val env c.ni 0 f.fstop := by
    intro d
    cases hf : f.fstop <;> simp only [val] <;> split_ifs <;> simp_all
  generalize hs : val env c.ni 0 f.fstep = s at h
  obtain ⟨k, p1, p2, p3⟩ := pow2_spec ⌊(if val env c.ni (harmonics * s) f.fstop = 0 then harmonics * s else val env c.ni (harmonics * s) f.fstop) * 2 / s⌋.toNat 1
  rw [mul_one] at p1
  generalize hq : (if val env c.ni (harmonics * s) f.fstop = 0 then harmonics * s else val env c.ni (harmonics * s) f.fstop) = q at p1 p2 p3
  have hpos : (0 : ℚ) < (2 : ℚ) ^ k := by positivity
  constructor
  · rfl
  · exact hs.symm
  · simp only
    rw [← hq]
    exact hv _
  · simp only
    field_simp
    ring
  · simp only [p1]
    push_cast
    field_simp
    ring
  · simp only [Bool.or_eq_true, decide_eq_true_eq]
    by_cases h1 : st.flag .cold = false ∧ 0 < last
    · rw [if_pos h1, if_neg]
      rintro (h2 | h2)
      · rw [h1.1] at h2; cases h2
      · linarith [h1.2]
    · rw [if_neg h1, if_pos]
      by_contra h2
      push Not at h2
      exact h1 ⟨by simpa using h2.1, h2.2⟩
  · simp
  · exact ⟨k, p1⟩
  · intro h0
    simp only at h0 ⊢
    have hq' : (q * 2 / s) < 2 ^ k := by
      have h1 := Int.lt_floor_add_one (q * 2 / s)
      have h2 : (⌊q * 2 / s⌋ : ℤ) ≤ (⌊q * 2 / s⌋.toNat : ℤ) := Int.self_le_toNat _
      have h3 : ((⌊q * 2 / s⌋.toNat : ℤ)) + 1 ≤ (2 : ℤ) ^ k := by exact_mod_cast p2
      have h4 : ((⌊q * 2 / s⌋ : ℤ) : ℚ) + 1 ≤ (2 : ℚ) ^ k := by exact_mod_cast (by linarith : (⌊q * 2 / s⌋ : ℤ) + 1 ≤ (2 : ℤ) ^ k)
      linarith
    rw [p1]
    push_cast
    rw [div_lt_iff₀ h0] at hq'
    linarith
  · intro h0 h1
    simp only at h0 h1 ⊢
    have hq1 : 1 ≤ q * 2 / s := by rw [le_div_iff₀ h0]; linarith
    have hfl : (1 : ℤ) ≤ ⌊q * 2 / s⌋ := Int.le_floor.mpr (by exact_mod_cast hq1)
    have h3 : ((2 : ℚ) ^ k) ≤ 2 * (q * 2 / s) := by
      have hle := Int.floor_le (q * 2 / s)
      have htn : ((⌊q * 2 / s⌋.toNat : ℕ) : ℤ) = ⌊q * 2 / s⌋ := Int.toNat_of_nonneg (by omega)
      have hk : (2 : ℤ) ^ k ≤ 2 * ⌊q * 2 / s⌋ := by
        rcases p3 with rfl | p3
        · simp; omega
        · rw [← htn]; exact_mod_cast p3
      have hk' : ((2 : ℚ) ^ k) ≤ 2 * ((⌊q * 2 / s⌋ : ℤ) : ℚ) := by exact_mod_cast hk
      linarith
    rw [p1]
    push_cast
    have h4 : 2 * (q * 2 / s) * s = 4 * q := by field_simp; ring
    rw [← h4]
    exact mul_le_mul_of_nonneg_right h3 h0.le
  · rfl
  · simp only
    rcases h1 : hard (st.par .dtmin) with _ | _
    · rcases h2 : hard (st.par .dtratio) with _ | _
      · have : st.par .dtratio = .unset := by cases hp : st.par .dtratio <;> simp_all [hard]
        simp [this, val]
      · have : ∀ d, val env c.ni d (st.par .dtratio) = val env c.ni 0 (st.par .dtratio) := by
          intro d; cases hp : st.par .dtratio <;> simp_all [hard, val]
        simp [this c.dtratio]
    · have : ∀ d, val env c.ni d (st.par .dtmin) = val env c.ni 0 (st.par .dtmin) := by
        intro d; cases hp : st.par .dtmin <;> simp_all [hard, val]
      simp [this c.dtmin]

theorem fourier_some (e : Env) (env : List Char → ℚ) (c : TranSet.Cfg ℚ) (harmonics : ℚ) (plotOn : Bool) (last : ℚ) (f : Fo) (st : St)
    (l : Line) (h : l.FoGood e) : foNumbers e env c.ni f l.text = some (some (f.does (l.nums.map (·.value e.units))), lineText l.items l.rest) ∧
      options e plotOn st (lineText l.items l.rest) = .done (l.items.foldl (Item.does e) (clean e plotOn st)) l.rest := by
  have hz := h.rest.follows
  have hfl := line_follows e l.rest hz l.items h.items
  refine ⟨foNumbers_text e env c.ni f l.nums (lineText l.items l.rest) h.nums.2.1 h.nums.2.2 h.nums.1 hfl ?_,
    options_items e plotOn l.rest hz h.rest.left l.items st h.items⟩
  intro hlt
  rcases hi : l.items with _ | ⟨i, r⟩
  · exact h.stop hlt hi
  · exact item_arg e i (h.items i (by simp [hi])) _

theorem fourier_eq (e : Env) (env : List Char → ℚ) (c : TranSet.Cfg ℚ) (harmonics : ℚ) (plotOn : Bool) (last : ℚ) (f : Fo) (st : St)
    (l : Line) (h : l.FoGood e) (r : FoRun)
    (hr : foRun env c harmonics last (f.does (l.nums.map (·.value e.units))) (l.items.foldl (Item.does e) (clean e plotOn st)) = some r) :
    fourier e env c harmonics plotOn last f st l.text = .run
        (if val env c.ni (harmonics * r.fstep) (f.does (l.nums.map (·.value e.units))).fstop = 0
          then { f.does (l.nums.map (·.value e.units)) with fstop := .num r.fstop } else f.does (l.nums.map (·.value e.units)))
        ((((l.items.foldl (Item.does e) (clean e plotOn st)).setPar .start (.num r.start)).setPar .stop (.num r.stop)).setPar .strobe (.num r.strobe)) r l.rest := by
  obtain ⟨h1, h2⟩ := fourier_some e env c harmonics plotOn last f st l h
  unfold fourier
  rw [h1]
  simp only [h2]
  rw [hr]

/-- **C92, the line of FOURIER**: from its text, it is refused if the step frequency is 0, else there is a run as it should be, for the frequencies
the numbers mean and the options of the line; the step and start frequencies are kept. -/
theorem fourier_line (e : Env) (env : List Char → ℚ) (c : TranSet.Cfg ℚ) (harmonics : ℚ) (plotOn : Bool) (last : ℚ) (f : Fo) (st : St)
    (l : Line) (h : l.FoGood e) :
    (val env c.ni 0 (f.does (l.nums.map (·.value e.units))).fstep = 0 → fourier e env c harmonics plotOn last f st l.text = .bad) ∧
    (val env c.ni 0 (f.does (l.nums.map (·.value e.units))).fstep ≠ 0 → ∃ f' st' r, fourier e env c harmonics plotOn last f st l.text = .run f' st' r l.rest ∧
      r.Is env c harmonics last (f.does (l.nums.map (·.value e.units))) ((l.items.foldl (Item.does e) (clean e plotOn st)).flag .cold)
        (l.items.foldl (Item.does e) (clean e plotOn st)).par ∧
      f'.fstep = (f.does (l.nums.map (·.value e.units))).fstep ∧ f'.fstart = (f.does (l.nums.map (·.value e.units))).fstart) := by
  constructor
  · intro h0
    obtain ⟨h1, h2⟩ := fourier_some e env c harmonics plotOn last f st l h
    unfold fourier
    rw [h1]
    simp only [h2]
    have : foRun env c harmonics last (f.does (l.nums.map (·.value e.units))) (l.items.foldl (Item.does e) (clean e plotOn st)) = none := by
      unfold foRun
      simp only
      rw [if_pos h0]
    rw [this]
  · intro h0
    obtain ⟨r, hr, his⟩ := foRun_is env c harmonics last (f.does (l.nums.map (·.value e.units))) (l.items.foldl (Item.does e) (clean e plotOn st)) h0
    refine ⟨_, _, r, fourier_eq e env c harmonics plotOn last f st l h r hr, his, ?_, ?_⟩
    · split <;> rfl
    · split <;> rfl

/-- a step below 0 is taken: the run should end before it begins, and nobody says so -/
theorem fourier_backwards (e : Env) (env : List Char → ℚ) (c : TranSet.Cfg ℚ) (harmonics : ℚ) (plotOn : Bool) (last : ℚ) (f : Fo) (st : St)
    (n1 n2 n3 : Numeral) (h1 : Plain n1) (h2 : n2.Wf) (h3 : n3.Wf) (hn : n3.value e.units < 0) (ho : e.outset [] = []) :
    ∃ f' st' r, fourier e env c harmonics plotOn last f st (numsText [n1, n2, n3] []) = .run f' st' r [] ∧ r.stop < r.start ∧ r.strobe < 0 := by
  have hg : Line.FoGood e ⟨[n1, n2, n3], [], []⟩ := by
    refine ⟨⟨by simp, ?_, ?_⟩, by simp, .nil ho, by simp⟩
    · intro n hn
      simp only [List.mem_cons, List.not_mem_nil, or_false] at hn
      rcases hn with rfl | rfl | rfl
      · exact h1.1
      · exact h2
      · exact h3
    · rintro n hn
      cases hn
      exact h1
  have hne : val env c.ni 0 (f.does (([n1, n2, n3] : List Numeral).map (·.value e.units))).fstep ≠ 0 := hn.ne
  obtain ⟨f', st', r, hr, his, -⟩ := (fourier_line e env c harmonics plotOn last f st ⟨[n1, n2, n3], [], []⟩ hg).2 hne
  have hs : r.fstep = n3.value e.units := his.fstep
  have hp := his.period
  have hsam := his.sampled
  obtain ⟨k, hk⟩ := his.power
  have hlt : r.stop - r.start < 0 := by
    by_contra hc
    have : (r.stop - r.start) * r.fstep ≤ 0 := mul_nonpos_of_nonneg_of_nonpos (not_lt.mp hc) (by rw [hs]; exact hn.le)
    linarith
  refine ⟨f', st', r, hr, by linarith, ?_⟩
  by_contra hc
  have : 0 ≤ r.strobe * r.points := mul_nonneg (not_lt.mp hc) (by positivity)
  linarith

/-- an option that sets a time: start, stop or strobe period -/
def Item.time : Item → Bool
  | .num w _ _ => decide (meant w = some (.par .start)) || decide (meant w = some (.par .stop)) || decide (meant w = some (.par .strobe))
  | _ => false

/-- two states that differ at most in the times -/
structure Alike (a b : St) : Prop where
  par : ∀ f, f ≠ .start → f ≠ .stop → f ≠ .strobe → a.par f = b.par f
  temp : a.temp = b.temp
  flag : a.flag = b.flag
  trace : a.trace = b.trace

theorem alike_does (e : Env) (i : Item) (a b : St) (h : Alike a b) : Alike (i.does e a) (i.does e b) := by
  obtain ⟨h1, h2, h3, h4⟩ := h
  cases i with
  | num w q n =>
    simp only [Item.does]
    split
    · refine ⟨fun f f1 f2 f3 => ?_, h2, h3, h4⟩
      simp only [h1 f f1 f2 f3]
    · refine ⟨fun f f1 f2 f3 => ?_, h2, h3, h4⟩
      simp only [h1 f f1 f2 f3]
    · exact ⟨h1, rfl, h3, h4⟩
    · exact ⟨h1, rfl, h3, h4⟩
    · exact ⟨h1, h2, h3, h4⟩
  | flag w on =>
    simp only [Item.does]
    split
    · exact ⟨h1, h2, by simp only [h3], h4⟩
    · exact ⟨h1, h2, h3, h4⟩
  | is w t =>
    simp only [Item.does]
    split
    · exact ⟨h1, h2, by simp only [h3], h4⟩
    · exact ⟨h1, h2, h3, h4⟩
  | trace w q t =>
    simp only [Item.does]
    split
    · exact ⟨h1, h2, h3, rfl⟩
    · exact ⟨h1, h2, h3, h4⟩

theorem alike_time (e : Env) (i : Item) (hi : i.time = true) (a b : St) (h : Alike a b) : Alike (i.does e a) b := by
  obtain ⟨h1, h2, h3, h4⟩ := h
  cases i with
  | num w q n =>
    simp only [Item.time, Bool.or_eq_true, decide_eq_true_eq] at hi
    rcases hi with (hi | hi) | hi <;>
    · simp only [Item.does, hi]
      refine ⟨fun f f1 f2 f3 => ?_, h2, h3, h4⟩
      simp only [f1, f2, f3, if_false]
      exact h1 f f1 f2 f3
  | flag w on => cases hi
  | is w t => cases hi
  | trace w q t => cases hi

theorem alike_items (e : Env) : ∀ (l : List Item) (a b : St), Alike a b →
    Alike (l.foldl (Item.does e) a) ((l.filter fun i => !i.time).foldl (Item.does e) b)
  | [], _, _, h => h
  | i :: l, a, b, h => by
    rcases hi : i.time with _ | _
    · simp only [List.filter_cons, hi, Bool.not_false, if_true, List.foldl_cons]
      exact alike_items e l _ _ (alike_does e i a b h)
    · simp only [List.filter_cons, hi, Bool.not_true, Bool.false_eq_true, if_false, List.foldl_cons]
      exact alike_items e l _ _ (alike_time e i hi a b h)

theorem foRun_alike (env : List Char → ℚ) (c : TranSet.Cfg ℚ) (harmonics last : ℚ) (f : Fo) (a b : St) (h : Alike a b) :
    foRun env c harmonics last f a = foRun env c harmonics last f b := by
  unfold foRun
  rw [h.flag, h.par .dtmax (by decide) (by decide) (by decide), h.par .dtmin (by decide) (by decide) (by decide),
    h.par .dtratio (by decide) (by decide) (by decide), h.par .skip (by decide) (by decide) (by decide)]

/-- **C92, the times in FOURIER**: the options `start`, `stop` and `strobeperiod` are read, and change nothing: the run is that of the line without
them. -/
theorem fourier_times_ignored (e : Env) (env : List Char → ℚ) (c : TranSet.Cfg ℚ) (harmonics : ℚ) (plotOn : Bool) (last : ℚ) (f : Fo) (st : St)
    (l : Line) (h : l.FoGood e) (h' : Line.FoGood e { l with items := l.items.filter fun i => !i.time })
    (h0 : val env c.ni 0 (f.does (l.nums.map (·.value e.units))).fstep ≠ 0) :
    ∃ f' st1 st2 r, fourier e env c harmonics plotOn last f st l.text = .run f' st1 r l.rest ∧
      fourier e env c harmonics plotOn last f st (Line.text { l with items := l.items.filter fun i => !i.time }) = .run f' st2 r l.rest := by
  obtain ⟨r, hr, -⟩ := foRun_is env c harmonics last (f.does (l.nums.map (·.value e.units))) (l.items.foldl (Item.does e) (clean e plotOn st)) h0
  have hr' := hr
  rw [foRun_alike _ _ _ _ _ _ _ (alike_items e l.items (clean e plotOn st) (clean e plotOn st) ⟨fun _ _ _ _ => rfl, rfl, rfl, rfl⟩)] at hr'
  exact ⟨_, _, _, r, fourier_eq e env c harmonics plotOn last f st l h r hr,
    fourier_eq e env c harmonics plotOn last f st { l with items := l.items.filter fun i => !i.time } h' r hr'⟩

/-! ## Examples -/

open Gnucap.AnaCmd (num num_wf demoEnv likeB likeB_of)

theorem num_plain (ds : List ℕ) (h : ∀ d ∈ ds, d < 10) (hn : ds ≠ []) : Plain (num ds) := ⟨num_wf ds h hn, rfl⟩

def demoSt : St := ⟨fun _ => .unset, 27, fun _ => false, .none⟩

theorem demo_same (env : List Char → ℚ) : Same env TranSet.cfg.ni demoSt (TranSet.St.new TranSet.cfg) := by
  constructor <;> exact agree_unset _ _ _

def demoLine : Line := ⟨[num [1], num [1, 0]], [.num ['s', 'k', 'i', 'p'] true (num [2]), .flag ['u', 'i', 'c'] true,
  .trace ['t', 'r', 'a', 'c', 'e'] false ['a', 'l', 'l']], []⟩

theorem demo_good : demoLine.Good demoEnv := by
  refine ⟨⟨by decide, ?_⟩, ?_, .nil rfl, by simp [demoLine]⟩
  · intro n hn
    simp only [demoLine, List.mem_cons, List.not_mem_nil, or_false] at hn
    rcases hn with rfl | rfl <;> exact num_plain _ (by decide) (by decide)
  · intro i hi
    simp only [demoLine, List.mem_cons, List.not_mem_nil, or_false] at hi
    rcases hi with rfl | rfl | rfl
    · refine ⟨⟨.int .skip, by decide +kernel, by simp, by simp, fun f _ => ?_⟩, num_wf _ (by decide) (by decide)⟩
      have : (num [2]).value demoEnv.units = 2 := by decide +kernel
      rw [this]
      decide +kernel
    · exact ⟨.uic, by decide +kernel⟩
    · exact ⟨by decide +kernel, by decide +kernel⟩

/-- `tran 1 10 skip=2 uic trace all`: from 0 to 10, values kept every 1, steps of at most 1/2 -/
example (env : List Char → ℚ) : ∃ st', tran demoEnv env TranSet.cfg true false 0 demoSt "1 10 skip=2 uic trace all".toList =
    .run st' ⟨0, 10, 1, 1 / 2, 1 / 10 ^ 9 / 2, false, 0⟩ [] ∧ st'.flag .uic = true ∧ st'.trace = .alltime ∧ st'.temp = 27 := by
  obtain ⟨st', -, h, h2, h3, h4⟩ := tran_line demoEnv env TranSet.cfg true false demoSt (TranSet.St.new TranSet.cfg) (demo_same env) demoLine demo_good
  have ht : demoLine.text = "1 10 skip=2 uic trace all".toList := by decide +kernel
  have hv : demoLine.nums.map (·.value demoEnv.units) = [1, 10] := by decide +kernel
  have ho : demoLine.opts demoEnv.units = { skip := some 2 } := by
    have h1 : meant ['s', 'k', 'i', 'p'] = some (.int .skip) := by decide +kernel
    have h2 : meant ['u', 'i', 'c'] = some (.flag .uic) := by decide +kernel
    have h3 : whole ((num [2]).value demoEnv.units) = 2 := by decide +kernel
    simp [Line.opts, demoLine, Item.opt, h1, h2, h3]
  have hr : (TranSet.setup TranSet.cfg true [1, 10] { skip := some 2 } (TranSet.St.new TranSet.cfg)).2 = some ⟨0, 10, 1, 1 / 2, 1 / 10 ^ 9 / 2, false, 0⟩ := by
    simp [TranSet.setup, TranSet.finish, TranSet.options, TranSet.args, TranSet.prepare, TranSet.over, TranSet.Par.eval, TranSet.Par.set, TranSet.St.new,
      TranSet.cfg]
    norm_num
  rw [ht, hv, ho, hr] at h
  refine ⟨st', h, ?_, ?_, ?_⟩
  · rw [h3]
    decide +kernel
  · rw [h4]
    decide +kernel
  · rw [h2]
    decide +kernel

/-- `tran 1 10 cold=yes uic=no`: cold, not from the initial conditions -/
example (env : List Char → ℚ) : ∃ st' r, tran demoEnv env TranSet.cfg true false 0 demoSt "1 10 cold=yes uic=no".toList = .run st' r [] ∧
    st'.flag .cold = true ∧ st'.flag .uic = false := by
  have hg : Line.Good demoEnv ⟨[num [1], num [1, 0]], [.is ['c', 'o', 'l', 'd'] ['y', 'e', 's'], .is ['u', 'i', 'c'] ['n', 'o']], []⟩ := by
    refine ⟨demo_good.nums, ?_, .nil rfl, by simp⟩
    intro i hi
    simp only [List.mem_cons, List.not_mem_nil, or_false] at hi
    rcases hi with rfl | rfl
    · exact ⟨⟨.cold, by decide +kernel⟩, .inl (by decide)⟩
    · exact ⟨⟨.uic, by decide +kernel⟩, .inr (by decide)⟩
  obtain ⟨st', -, h, h2, h3, h4⟩ := tran_line demoEnv env TranSet.cfg true false demoSt (TranSet.St.new TranSet.cfg) (demo_same env) _ hg
  have ht : Line.text ⟨[num [1], num [1, 0]], [.is ['c', 'o', 'l', 'd'] ['y', 'e', 's'], .is ['u', 'i', 'c'] ['n', 'o']], []⟩ = "1 10 cold=yes uic=no".toList := by
    decide +kernel
  have hv : ([num [1], num [1, 0]] : List Numeral).map (·.value demoEnv.units) = [1, 10] := by decide +kernel
  have ho : Line.opts demoEnv.units ⟨[num [1], num [1, 0]], [.is ['c', 'o', 'l', 'd'] ['y', 'e', 's'], .is ['u', 'i', 'c'] ['n', 'o']], []⟩ = { cold := true } := by
    have h1 : meant ['c', 'o', 'l', 'd'] = some (.flag .cold) := by decide +kernel
    have h2 : meant ['u', 'i', 'c'] = some (.flag .uic) := by decide +kernel
    have h3 : ['y', 'e', 's'] ∈ Opt.yesWords := by decide
    simp [Line.opts, Item.opt, h1, h2, h3]
  have hr : (TranSet.setup TranSet.cfg true [1, 10] { cold := true } (TranSet.St.new TranSet.cfg)).2.isSome = true := by
    simp [TranSet.setup, TranSet.finish, TranSet.options, TranSet.args, TranSet.prepare, TranSet.over, TranSet.Par.eval, TranSet.Par.set, TranSet.St.new,
      TranSet.cfg]
    norm_num
  obtain ⟨r, hr⟩ := Option.isSome_iff_exists.mp hr
  rw [ht] at h
  simp only at h
  rw [hv, ho, hr] at h
  refine ⟨st', r, h, ?_, ?_⟩ <;> rw [h3] <;> decide +kernel

/-- `tran 1 10`, in any state -/
example (env : List Char → ℚ) (st : St) (s : TranSet.St ℚ) (hs : Same env TranSet.cfg.ni st s) : ∃ st' r, tran demoEnv env TranSet.cfg false false s.last st
    "1 10".toList = .run st' r [] ∧ r.start = 0 ∧ r.stop = 10 ∧ r.strobe = 1 := by
  have hv : ([num [1], num [1, 0]] : List Numeral).map (·.value demoEnv.units) = [1, 10] := by decide +kernel
  have h := tran_gives demoEnv env TranSet.cfg false false st s hs [num [1], num [1, 0]] (by simp) (by
    intro n hn
    simp only [List.mem_cons, List.not_mem_nil, or_false] at hn
    rcases hn with rfl | rfl <;> exact num_plain _ (by decide) (by decide)) rfl ⟨0, 10, 1⟩
    (by rw [hv]; exact TranSet.two_spice TranSet.cfg false s 10 1 (by norm_num) (by norm_num))
  exact h

/-- after `tran 1 10`, `tran -5 30` runs from 10 to 20 -/
example (env : List Char → ℚ) (st : St) (s : TranSet.St ℚ) (hs : Same env TranSet.cfg.ni st s) (h1 : s.start = .set 0) (h2 : s.stop = .set 10) (h3 : s.last = 10) :
    ∃ st' run, tran demoEnv env TranSet.cfg false false 10 st "-5 30".toList = .run st' run "-5 30".toList ∧ run.start = 10 ∧ run.stop = 20 := by
  obtain ⟨st', run, h, e1, e2⟩ := tran_signed_wrong demoEnv env TranSet.cfg false st s hs 0 10 h1 h2 h3 le_rfl (by norm_num) '-' ['5'] [' ', '3', '0'] (.inr rfl)
    (Opt.word_of (by decide +kernel)) rfl rfl
  exact ⟨st', run, h, e1, by rw [e2]; norm_num⟩

example (env : List Char → ℚ) : ∃ st', tran demoEnv env TranSet.cfg true false 0 demoSt "1 10 0 1 7".toList =
    match (TranSet.setup TranSet.cfg true [1, 10, 0, 1] {} (TranSet.St.new TranSet.cfg)).2 with
    | some r => .run st' r ['7']
    | none => .bad st' ['7'] := by
  have p : ∀ d, d < 10 → Plain (num [d]) := fun d hd => num_plain _ (by simpa using hd) (by simp)
  obtain ⟨st', h⟩ := tran_fifth demoEnv env TranSet.cfg true false demoSt (TranSet.St.new TranSet.cfg) (demo_same env) (num [1]) (num [1, 0]) (num [0]) (num [1]) (num [7])
    (p 1 (by decide)) (num_plain _ (by decide) (by decide)) (p 0 (by decide)) (p 1 (by decide)) (p 7 (by decide)) (Opt.word_of (by decide +kernel)) [] rfl rfl
  have ht : numsText [num [1], num [1, 0], num [0], num [1]] ((num [7]).text ++ []) = "1 10 0 1 7".toList := by decide +kernel
  have v1 : (num [1]).value demoEnv.units = 1 := by decide +kernel
  have v2 : (num [1, 0]).value demoEnv.units = 10 := by decide +kernel
  have v3 : (num [0]).value demoEnv.units = 0 := by decide +kernel
  rw [ht, v1, v2, v3] at h
  exact ⟨st', h⟩

/-- three lines: a run, a line without numbers, one that is refused -/
example (env : List Char → ℚ) : session demoEnv env TranSet.cfg false true 0 demoSt ["1 10 skip=2 uic trace all".toList, [], "10 3".toList] =
    sessionN TranSet.cfg true (TranSet.St.new TranSet.cfg) [([1, 10], { skip := some 2 }), ([], {}), ([10, 3], {})] := by
  have hg : Line.Good demoEnv ⟨[num [1, 0], num [3]], [], []⟩ := by
    refine ⟨⟨by decide, ?_⟩, by simp, .nil rfl, fun _ _ => rfl⟩
    intro n hn
    simp only [List.mem_cons, List.not_mem_nil, or_false] at hn
    rcases hn with rfl | rfl <;> exact num_plain _ (by decide) (by decide)
  have h := tran_session demoEnv env TranSet.cfg false [demoLine, ⟨[], [], []⟩, ⟨[num [1, 0], num [3]], [], []⟩] true demoSt (TranSet.St.new TranSet.cfg) (demo_same env) (by
    intro x hx
    simp only [List.mem_cons, List.not_mem_nil, or_false] at hx
    rcases hx with rfl | rfl | rfl
    · exact demo_good
    · exact ⟨⟨by simp, by simp⟩, by simp, .nil rfl, fun _ _ => rfl⟩
    · exact hg)
  have ht : demoLine.text = "1 10 skip=2 uic trace all".toList := by decide +kernel
  have ht2 : Line.text ⟨[num [1, 0], num [3]], [], []⟩ = "10 3".toList := by decide +kernel
  have hv : demoLine.nums.map (·.value demoEnv.units) = [1, 10] := by decide +kernel
  have hv2 : ([num [1, 0], num [3]] : List Numeral).map (·.value demoEnv.units) = [10, 3] := by decide +kernel
  have ho : demoLine.opts demoEnv.units = { skip := some 2 } := by
    have h1 : meant ['s', 'k', 'i', 'p'] = some (.int .skip) := by decide +kernel
    have h2 : meant ['u', 'i', 'c'] = some (.flag .uic) := by decide +kernel
    have h3 : whole ((num [2]).value demoEnv.units) = 2 := by decide +kernel
    simp [Line.opts, demoLine, Item.opt, h1, h2, h3]
  simp only [List.map_cons (l := [_, _]), List.map_cons (l := [_]), List.map_cons (l := []), List.map_nil] at h hv2
  rw [ht, hv, ho, ht2] at h
  have hl0 : (TranSet.St.new TranSet.cfg).last = 0 := rfl
  simpa [Line.text, numsText, lineText, Line.opts, hv2, hl0] using h

def demoFo : Line := ⟨[num [0], num [1, 0], num [2]], [.num ['s', 't', 'o', 'p'] true (num [7]), .flag ['c', 'o', 'l', 'd'] true], []⟩

theorem demo_fo (l : List Item) (hl : ∀ i ∈ l, i ∈ demoFo.items) : Line.FoGood demoEnv ⟨[num [0], num [1, 0], num [2]], l, []⟩ := by
  refine ⟨⟨by simp, ?_, ?_⟩, ?_, .nil rfl, by simp⟩
  · intro n hn
    simp only [List.mem_cons, List.not_mem_nil, or_false] at hn
    rcases hn with rfl | rfl | rfl <;> exact num_wf _ (by decide) (by decide)
  · rintro n hn
    cases hn
    exact num_plain _ (by decide) (by decide)
  · intro i hi
    have := hl i hi
    simp only [demoFo, List.mem_cons, List.not_mem_nil, or_false] at this
    rcases this with rfl | rfl
    · exact ⟨⟨.par .stop, by decide +kernel, by simp, by simp, by simp⟩, num_wf _ (by decide) (by decide)⟩
    · exact ⟨.cold, by decide +kernel⟩

/-- `fourier 0 10 2 stop=7 cold`, after a run to 5: from 0 to 1/2, in 16 points; `stop=7` does nothing -/
example (env : List Char → ℚ) (f : Fo) : ∃ f' st1 st2 r, fourier demoEnv env TranSet.cfg 9 false 5 f demoSt "0 10 2 stop=7 cold".toList = .run f' st1 r [] ∧
    fourier demoEnv env TranSet.cfg 9 false 5 f demoSt "0 10 2 cold".toList = .run f' st2 r [] ∧ r.stop - r.start = 1 / 2 ∧ r.points = 16 := by
  have v3 : (num [2]).value demoEnv.units = 2 := by decide +kernel
  have v2 : (num [1, 0]).value demoEnv.units = 10 := by decide +kernel
  have h0 : val env TranSet.cfg.ni 0 (f.does (demoFo.nums.map (·.value demoEnv.units))).fstep ≠ 0 := by
    show (num [2]).value demoEnv.units ≠ 0
    rw [v3]
    norm_num
  have hg := demo_fo demoFo.items (fun _ h => h)
  obtain ⟨f', st1, st2, r, h1, h2⟩ := fourier_times_ignored demoEnv env TranSet.cfg 9 false 5 f demoSt demoFo hg
    (demo_fo _ (fun i hi => (List.mem_filter.mp hi).1)) h0
  obtain ⟨f3, st3, r3, h3, his, -⟩ := (fourier_line demoEnv env TranSet.cfg 9 false 5 f demoSt demoFo hg).2 h0
  rw [h1] at h3
  cases h3
  have ht : demoFo.text = "0 10 2 stop=7 cold".toList := by decide +kernel
  have ht2 : Line.text { demoFo with items := demoFo.items.filter fun i => !i.time } = "0 10 2 cold".toList := by decide +kernel
  rw [ht] at h1
  rw [ht2] at h2
  have hs : r.fstep = 2 := his.fstep.trans v3
  have hp := his.period
  have hfs : r.fstop = 10 := by
    rw [his.fstop]
    show (if (num [1, 0]).value demoEnv.units = 0 then _ else (num [1, 0]).value demoEnv.units) = 10
    rw [v2]
    norm_num
  refine ⟨f', st1, st2, r, h1, h2, by rw [hs] at hp; linarith, ?_⟩
  have e1 := his.enough (by rw [hs]; norm_num)
  have e2 := his.few (by rw [hs]; norm_num) (by rw [hs, hfs]; norm_num)
  obtain ⟨k, hk⟩ := his.power
  rw [hs, hfs] at e1 e2
  have b1 : 10 < r.points := by
    have : (10 : ℚ) < r.points := by linarith
    exact_mod_cast this
  have b2 : r.points ≤ 20 := by
    have : (r.points : ℚ) ≤ 20 := by linarith
    exact_mod_cast this
  rw [hk] at b1 b2 ⊢
  have : k = 4 := by
    have h5 : k < 5 := by
      by_contra hc
      have := Nat.pow_le_pow_right (n := 2) (by norm_num) (not_lt.mp hc)
      omega
    have h3 : 3 < k := by
      by_contra hc
      have := Nat.pow_le_pow_right (n := 2) (by norm_num) (not_lt.mp hc)
      omega
    omega
  rw [this]
  rfl

/-- `fourier 0 10 -2` -/
example (env : List Char → ℚ) (f : Fo) (st : St) : ∃ f' st' r, fourier demoEnv env TranSet.cfg 9 false 0 f st "0 10 -2".toList = .run f' st' r [] ∧
    r.stop < r.start ∧ r.strobe < 0 :=
  fourier_backwards demoEnv env TranSet.cfg 9 false 0 f st (num [0]) (num [1, 0]) ⟨some true, [2], false, [], .word []⟩ (num_plain _ (by decide) (by decide))
    (num_wf _ (by decide) (by decide)) ⟨by decide, by simp, by simp, .inl (by simp), by simp [Word]⟩ (by decide +kernel) rfl

example : options demoEnv false demoSt "what is this".toList ≠ .running := options_ends _ _ _ _

end Gnucap.TranCmd
