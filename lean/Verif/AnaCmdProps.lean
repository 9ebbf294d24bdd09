import Verif.AnaCmdModel
import Verif.OptNames
import Verif.OptProps
import Verif.OptValues
import Verif.SpiceProps
import Verif.NumProps
import Verif.SweepProps

/-! # The command lines of the AC, OP and DC analyses: what a line sets (claim C88) -/

namespace Gnucap.AnaCmd
open Gnucap.Scan Gnucap.Spice Gnucap.Num

/-! ## What lines mean -/

/-- the words of a command: what must be written, what may be written behind it, what it is for -/
abbrev Names := List (List Char × List Char × Act)

def stepNames : Names := [
  (['*'], [], .step .times),
  (['+'], [], .step .linStep),
  (['b', 'y'], [], .step .linStep),
  (['s', 't', 'e', 'p'], [], .step .linStep),
  (['d'], ['e', 'c', 'a', 'd', 'e'], .step .decade),
  (['t', 'i'], ['m', 'e', 's'], .step .times),
  (['l', 'i', 'n'], [], .step .linPts),
  (['o'], ['c', 't', 'a', 'v', 'e'], .step .octave)]

def acNames : Names := stepNames ++ [
  (['d', 't'], ['e', 'm', 'p'], .dtemp),
  (['p', 'l'], ['o', 't'], .flag .plot),
  (['p', 'r'], ['e', 'v', 'o', 'p', 'p', 'o', 'i', 'n', 't'], .flag .prevop),
  (['s', 't', 'a'], ['r', 't'], .start),
  (['s', 't', 'o'], ['p'], .stop),
  (['t', 'e'], ['m', 'p', 'e', 'r', 'a', 't', 'u', 'r', 'e'], .temp)]

def dcNames : Names := stepNames ++ [
  (['c'], ['o', 'n', 't', 'i', 'n', 'u', 'e'], .flag .cont),
  (['d', 't'], ['e', 'm', 'p'], .dtemp),
  (['l', 'o'], ['o', 'p'], .flag .loop),
  (['r', 'e'], ['v', 'e', 'r', 's', 'e'], .flag .reverse),
  (['t', 'e'], ['m', 'p', 'e', 'r', 'a', 't', 'u', 'r', 'e'], .temp),
  (['t', 'r'], ['a', 'c', 'e'], .trace)]

/-- the ways to write a word -/
def spelled (must may : List Char) : List (List Char) := may.inits.map (must ++ ·)

/-- what a word is for -/
def meant (ns : Names) (w : List Char) : Option Act := (ns.find? fun e => (spelled e.1 e.2.1).contains w).map (·.2.2)

/-- the words behind `trace` -/
def traceNames : List (List Char × List Char × Trace) := [
  (['n'], ['o', 'n', 'e'], .none),
  (['o'], ['f', 'f'], .none),
  (['w'], ['a', 'r', 'n', 'i', 'n', 'g', 's'], .under),
  (['i'], ['t', 'e', 'r', 'a', 't', 'i', 'o', 'n', 's'], .iteration),
  (['v'], ['e', 'r', 'b', 'o', 's', 'e'], .verbose)]

def traceMeant (w : List Char) : Option Trace := (traceNames.find? fun e => (spelled e.1 e.2.1).contains w).map (·.2.2)

/-- What stands on a line: a word and a number (with a blank or an equal sign between), a word that turns a flag on, or off with
`no` in front, a flag and what it is to be, `trace` and one of its words, and a number alone -/
inductive Item where
  | num (name : List Char) (eq : Bool) (n : Numeral)
  | flag (name : List Char) (on : Bool)
  | is (name : List Char) (what : List Char)
  | trace (name : List Char) (eq : Bool) (what : List Char)
  | bare (n : Numeral)

def sepText (eq : Bool) : Char := if eq then '=' else ' '

def Item.text : Item → List Char
  | .num w q n => w ++ sepText q :: n.text
  | .flag w on => (if on then [] else ['n', 'o']) ++ w
  | .is w t => w ++ '=' :: t
  | .trace w q t => w ++ sepText q :: t
  | .bare n => n.text

/-- a blank in front of what is not empty -/
def gap (t : List Char) : List Char := if t = [] then [] else ' ' :: t

/-- items with blanks between, and a text behind -/
def lineText : List Item → List Char → List Char
  | [], z => z
  | i :: l, z => i.text ++ gap (lineText l z)

/-- what an item does -/
def Item.does (e : Env) (ns : Names) (st : St) : Item → St
  | .num w _ n =>
    match meant ns w with
    | some (.step m) => { st with stepIn := .num (n.value e.units), mode := m }
    | some .start => { st with start := .num (n.value e.units) }
    | some .stop => { st with stop := .num (n.value e.units) }
    | some .dtemp => { st with temp := e.optTemp + n.value e.units }
    | some .temp => { st with temp := n.value e.units }
    | _ => st
  | .flag w on =>
    match meant ns w with
    | some (.flag f) => { st with flag := fun g => if g = f then on else st.flag g }
    | _ => st
  | .is w t =>
    match meant ns w with
    | some (.flag f) => { st with flag := fun g => if g = f then decide (t ∈ Opt.yesWords) else st.flag g }
    | _ => st
  | .trace _ _ t =>
    match traceMeant t with
    | some x => { st with trace := x }
    | none => st
  | .bare n => { st with stepIn := .num (n.value e.units), mode := .linStep }

/-- an item of the command: a known word with what it takes; a number alone only where that is a step, and there no `+` -/
def Item.Good (lead : Bool) (ns : Names) : Item → Prop
  | .num w _ n => (∃ a, meant ns w = some a ∧ a ≠ .trace ∧ ∀ f, a ≠ .flag f) ∧ n.Wf ∧ (lead = true → w ≠ ['+'])
  | .flag w _ => ∃ f, meant ns w = some (.flag f)
  | .is w t => (∃ f, meant ns w = some (.flag f)) ∧ (t ∈ Opt.yesWords ∨ t ∈ Opt.noWords)
  | .trace w _ t => meant ns w = some .trace ∧ traceMeant t ≠ none
  | .bare n => lead = true ∧ n.Wf

/-! ## Words -/

def ending : Act → List Seg
  | .flag _ => [.delim]
  | _ => [.delim, .opt ['=']]

def miss (ci : Bool) (w : List Char) (x : List Char × Act) : Bool :=
  Opt.fails ci (Opt.segsOf none (x.2.pattern x.1)) w &&
    (match x.2 with | .flag _ => Opt.fails ci (Opt.segsOf none (['n', 'o'] ++ x.1)) w | _ => true)

def firstFor (table : List (List Char × Act)) (ci : Bool) (w : List Char) : Option (List Char × Act) := table.find? fun x => !miss ci w x

def picks (table : List (List Char × Act)) (ns : Names) (ci : Bool) (w : List Char) : Bool :=
  match firstFor table ci w, meant ns w with
  | some x, some a => decide (x.2 = a) && decide (Opt.reach ci (Opt.segsOf none (x.2.pattern x.1)) w = some (ending a))
  | _, _ => false

def picksNo (table : List (List Char × Act)) (ns : Names) (ci : Bool) (w : List Char) : Bool :=
  match meant ns w with
  | some (.flag f) =>
    match firstFor table ci (['n', 'o'] ++ w) with
    | some x => decide (x.2 = .flag f) && Opt.fails ci (Opt.segsOf none (x.2.pattern x.1)) (['n', 'o'] ++ w) &&
        decide (Opt.reach ci (Opt.segsOf none (['n', 'o'] ++ x.1)) (['n', 'o'] ++ w) = some [])
    | none => false
  | _ => true

def soundTable (table : List (List Char × Act)) : Bool :=
  table.all fun x => Opt.sound (x.2.pattern x.1) && Opt.sound (['n', 'o'] ++ x.1)

def words (ns : Names) : List (List Char) := ns.flatMap fun e => spelled e.1 e.2.1

/-- the table does with the words what they are for -/
structure Fits (table : List (List Char × Act)) (ns : Names) : Prop where
  sound : soundTable table = true
  word : ((words ns).all fun w => Opt.isWord w && Opt.isWord (['n', 'o'] ++ w) && (decide (w = ['+'] ∧ meant ns w = some (.step .linStep)) || !isArg w) &&
    picks table ns false w && picks table ns true w && picksNo table ns false w && picksNo table ns true w) = true

theorem ac_fits : Fits acTable acNames := ⟨by decide +kernel, by decide +kernel⟩
theorem dc_fits : Fits dcTable dcNames := ⟨by decide +kernel, by decide +kernel⟩
theorem step_fits : Fits stepTable stepNames := ⟨by decide +kernel, by decide +kernel⟩

theorem meant_words (ns : Names) (w : List Char) (a : Act) (h : meant ns w = some a) : w ∈ words ns := by
  unfold meant at h
  rcases hf : ns.find? (fun e => (spelled e.1 e.2.1).contains w) with _ | e
  · rw [hf] at h; cases h
  · obtain ⟨h1, -⟩ := List.find?_eq_some_iff_append.mp hf
    exact List.mem_flatMap.mpr ⟨e, List.mem_of_find?_eq_some hf, List.contains_iff_mem.mp h1⟩

section table
variable {table : List (List Char × Act)} {ns : Names} (ht : Fits table ns)

include ht in
theorem Fits.of {w : List Char} {a : Act} (h : meant ns w = some a) : Opt.Word w ∧ Opt.Word (['n', 'o'] ++ w) ∧ (isArg w = true → w = ['+'] ∧ a = .step .linStep) ∧
    ∀ ci, picks table ns ci w = true ∧ picksNo table ns ci w = true := by
  have := List.all_eq_true.mp ht.word w (meant_words ns w a h)
  simp only [Bool.and_eq_true, Bool.or_eq_true, decide_eq_true_eq, Bool.not_eq_true'] at this
  obtain ⟨⟨⟨⟨⟨⟨h1, h2⟩, h3⟩, h4⟩, h5⟩, h6⟩, h7⟩ := this
  refine ⟨Opt.word_of h1, Opt.word_of h2, fun hw => ?_, fun ci => ?_⟩
  · rcases h3 with ⟨h3, h8⟩ | h3
    · rw [h] at h8
      exact ⟨h3, Option.some.inj h8⟩
    · rw [h3] at hw; cases hw
  cases ci
  · exact ⟨h4, h6⟩
  · exact ⟨h5, h7⟩

include ht in
theorem Fits.snd {x : List Char × Act} (h : x ∈ table) : Opt.sound (x.2.pattern x.1) = true ∧ Opt.sound (['n', 'o'] ++ x.1) = true := by
  have := List.all_eq_true.mp ht.sound x h
  simpa only [Bool.and_eq_true] using this

include ht in
theorem tryAll_misses (e : Env) (st : St) (w rest : List Char) (hw : Opt.Word w) (hr : isTerm rest = true)
    (post : List (List Char × Act)) : ∀ (pre : List (List Char × Act)), (∀ x ∈ pre, x ∈ table ∧ miss e.ci w x = true) →
      tryAll e st (w ++ rest) (pre ++ post) = tryAll e st (w ++ rest) post
  | [], _ => rfl
  | x :: pre, h => by
    obtain ⟨h1, h2⟩ := h x (by simp)
    obtain ⟨s1, s2⟩ := ht.snd h1
    have hn : ∀ c ∈ w, isTermChar c = false := fun c hc => (hw.2 c hc).2
    have hu : ∀ p, Opt.sound p = true → Opt.fails e.ci (Opt.segsOf none p) w = true → umatch e.ci p (w ++ rest) = .fail := by
      intro p hp hf
      rw [Opt.umatch_sound _ _ _ hp, hw.skipbl, Opt.fails_spec e.ci rest hr _ w (Opt.sound_clean hp) hn hf]
    obtain ⟨key, a⟩ := x
    simp only [miss, Bool.and_eq_true] at h2
    have ih := tryAll_misses e st w rest hw hr post pre (fun x hx => h x (by simp [hx]))
    have u1 := hu _ s1 h2.1
    cases a with
    | flag f =>
      have u2 := hu _ s2 h2.2
      simp only at u1 u2
      rw [List.cons_append]
      simp only [tryAll, u1, u2]
      exact ih
    | _ =>
      simp only at u1
      simp only [List.cons_append, tryAll, u1]
      exact ih

include ht in
theorem tryAll_first (e : Env) (st : St) (w rest : List Char) (hw : Opt.Word w) (hr : isTerm rest = true) (x : List Char × Act)
    (hf : firstFor table e.ci w = some x) : x ∈ table ∧ ∃ post, tryAll e st (w ++ rest) table = tryAll e st (w ++ rest) (x :: post) := by
  obtain ⟨_, pre, post, hp, hpre⟩ := List.find?_eq_some_iff_append.mp hf
  refine ⟨by rw [hp]; simp, post, ?_⟩
  have := tryAll_misses ht e st w rest hw hr (x :: post) pre (by
    intro y hy
    exact ⟨by rw [hp]; simp [hy], by simpa using hpre y hy⟩)
  rw [← this, ← hp]

/-- what a word leaves -/
def behind (a : Act) (rest : List Char) : List Char :=
  match a with
  | .flag _ => skipcom (skipbl rest)
  | _ => skipcom (optDrop false ['='] (skipbl rest))

include ht in
theorem tryAll_word (e : Env) (st : St) (w rest : List Char) (a : Act) (hm : meant ns w = some a) (hr : isTerm rest = true) :
    tryAll e st (w ++ rest) table = a.run e st (behind a rest) := by
  obtain ⟨hw, -, -, hc⟩ := ht.of hm
  have hp := (hc e.ci).1
  unfold picks at hp
  rcases hf : firstFor table e.ci w with _ | x
  · rw [hf] at hp; simp at hp
  rw [hf, hm] at hp
  simp only [Bool.and_eq_true, decide_eq_true_eq] at hp
  obtain ⟨h1, h2⟩ := hp
  obtain ⟨hx, post, he⟩ := tryAll_first ht e st w rest hw hr x hf
  obtain ⟨s1, -⟩ := ht.snd hx
  obtain ⟨key, a'⟩ := x
  cases h1
  have hu : umatch e.ci (a'.pattern key) (w ++ rest) = .ok (behind a' rest) := by
    rw [Opt.umatch_sound _ _ _ s1, hw.skipbl, Opt.reach_spec e.ci rest hr (Opt.segsOf none (a'.pattern key)) w _ (Opt.sound_clean s1) h2]
    cases a' <;> simp [ending, segMatch, hr, behind, Opt.optDrop_eq e.ci]
  rw [he]
  cases a' <;> simp only [tryAll, hu]

include ht in
theorem tryAll_no (e : Env) (st : St) (w rest : List Char) (f : Flag) (hm : meant ns w = some (.flag f)) (hr : isTerm rest = true) :
    tryAll e st (['n', 'o'] ++ w ++ rest) table = some (st.setFlag f false, skipcom rest) := by
  obtain ⟨-, hw, -, hc⟩ := ht.of hm
  have hp := (hc e.ci).2
  unfold picksNo at hp
  rw [hm] at hp
  simp only at hp
  rcases hf : firstFor table e.ci (['n', 'o'] ++ w) with _ | x
  · rw [hf] at hp; simp at hp
  rw [hf] at hp
  simp only [Bool.and_eq_true, decide_eq_true_eq] at hp
  obtain ⟨⟨h1, h2⟩, h3⟩ := hp
  obtain ⟨hx, post, he⟩ := tryAll_first ht e st (['n', 'o'] ++ w) rest hw hr x hf
  obtain ⟨s1, s2⟩ := ht.snd hx
  obtain ⟨key, a'⟩ := x
  cases h1
  have hn : ∀ c ∈ ['n', 'o'] ++ w, isTermChar c = false := fun c hc => (hw.2 c hc).2
  have hu : umatch e.ci (Act.pattern key (.flag f)) (['n', 'o'] ++ w ++ rest) = .fail := by
    rw [Opt.umatch_sound _ _ _ s1, hw.skipbl, Opt.fails_spec e.ci rest hr _ _ (Opt.sound_clean s1) hn h2]
  have hu2 : umatch e.ci (['n', 'o'] ++ key) (['n', 'o'] ++ w ++ rest) = .ok (skipcom rest) := by
    rw [Opt.umatch_sound _ _ _ s2, hw.skipbl, Opt.reach_spec e.ci rest hr (Opt.segsOf none (['n', 'o'] ++ key)) _ _ (Opt.sound_clean s2) h3]
    rfl
  rw [he, tryAll, hu]
  simp only
  rw [hu2]

end table

/-! ## Numbers -/

theorem float_graph {c : Char} (h : isFloat c = true) : isGraph c = true ∧ c ≠ ',' ∧ c ≠ '=' ∧ isTermChar c = false ∧ c ≠ 'N' ∧ c ≠ 'n' := by
  simp only [isFloat, Bool.or_eq_true, beq_iff_eq] at h
  rcases h with ((h | rfl) | rfl) | rfl
  · simp only [isDigit, Bool.and_eq_true, decide_eq_true_eq] at h
    have hc : c = Char.ofNat c.toNat := by simp
    obtain ⟨k, hk⟩ : ∃ k, c.toNat = k := ⟨_, rfl⟩
    rw [hk] at h hc
    obtain ⟨h1, h2⟩ := h
    subst hc
    interval_cases k <;> decide
  all_goals decide

theorem float_next {c : Char} (h : isFloat c = true) (r : List Char) : Next (c :: r) :=
  .inr ⟨c, r, rfl, (float_graph h).1, (float_graph h).2.1⟩

theorem isArg_float {c : Char} (h : isFloat c = true) (r : List Char) : isArg (c :: r) = true := by simp [isArg, h]

theorem na_sound : Opt.sound ['N', 'A'] = true := by decide +kernel

theorem na_fails (ci : Bool) {c : Char} (r : List Char) (hg : isGraph c = true) (h : eqc ci c 'N' = false) : umatch ci ['N', 'A'] (c :: r) = .fail := by
  rw [Opt.umatch_sound _ _ _ na_sound, skipbl_cons _ hg]
  have : Opt.segsOf none ['N', 'A'] = [.lit 'N', .lit 'A'] := by decide +kernel
  rw [this]
  simp [segMatch, h]

theorem float_na (ci : Bool) {c : Char} (h : isFloat c = true) : eqc ci c 'N' = false := by
  simp only [isFloat, Bool.or_eq_true, beq_iff_eq] at h
  rcases h with ((h | rfl) | rfl) | rfl
  · simp only [isDigit, Bool.and_eq_true, decide_eq_true_eq] at h
    have hc : c = Char.ofNat c.toNat := by simp
    obtain ⟨k, hk⟩ : ∃ k, c.toNat = k := ⟨_, rfl⟩
    rw [hk] at h hc
    obtain ⟨h1, h2⟩ := h
    subst hc
    cases ci <;> interval_cases k <;> decide
  all_goals cases ci <;> decide

theorem parse_numeral (u : Units) (ci : Bool) (old : Param) (n : Numeral) (hn : n.Wf) (s : List Char) (hs : Stops s) :
    parse u ci old (n.text ++ s) = some (.num (n.value u), skipcom s) := by
  obtain ⟨c, r, e, h⟩ := n.head hn s
  have hc := ctof_numeral u n hn [] s (by simp) hs
  rw [List.nil_append] at hc
  unfold parse
  rw [hc, e, na_fails ci r (float_graph h).1 (float_na ci h)]

theorem number_numeral (u : Units) (n : Numeral) (hn : n.Wf) (s : List Char) (hs : Stops s) :
    Opt.number u (n.text ++ s) = some (n.value u, skipcom s) := by
  have hc := ctof_numeral u n hn [] s (by simp) hs
  rw [List.nil_append] at hc
  unfold Opt.number
  rw [hc]

/-! ## Items -/

/-- what may follow a blank: nothing, or a character that is neither a blank nor a comma nor an equal sign -/
structure Follows (t : List Char) : Prop where
  next : Next t
  eq : t.head? ≠ some '='

theorem skipbl_blank (t : List Char) : skipbl (' ' :: t) = skipbl t := by rw [skipbl]; simp [isGraph]

theorem gap_ne {t : List Char} (h : t ≠ []) : gap t = ' ' :: t := if_neg h

theorem skipbl_gap {t : List Char} (h : Follows t) : skipbl (gap t) = t := by
  unfold gap
  split
  · rename_i e; rw [e]; rfl
  · rw [skipbl_blank, h.next.skipbl]

theorem skipcom_gap {t : List Char} (h : Follows t) : skipcom (gap t) = t := by
  unfold gap
  split
  · rename_i e; rw [e]; rfl
  · have : skipcom (' ' :: t) = skipcom t := by unfold skipcom; rw [skipbl_blank]
    rw [this, h.next.skipcom]

theorem stops_gap (t : List Char) : Stops (gap t) := by
  intro c hc
  unfold gap at hc
  split at hc
  · cases hc
  · cases hc; decide

theorem term_gap (t : List Char) : isTerm (gap t) = true := by
  unfold gap
  split <;> rfl

theorem behind_num {a : Act} (ha : ∀ f, a ≠ .flag f) (q : Bool) (c : Char) (r : List Char) (hg : isGraph c = true) (h1 : c ≠ ',') (h2 : c ≠ '=') :
    behind a (sepText q :: c :: r) = c :: r := by
  have hx : behind a (sepText q :: c :: r) = skipcom (optDrop false ['='] (skipbl (sepText q :: c :: r))) := by
    cases a <;> first | rfl | exact absurd rfl (ha _)
  have hn : Next (c :: r) := .inr ⟨c, r, rfl, hg, h1⟩
  rw [hx]
  cases q
  · simp only [sepText, Bool.false_eq_true, if_false]
    rw [skipbl_blank, skipbl_cons _ hg]
    have : optDrop false ['='] (c :: r) = c :: r := by
      simp only [optDrop]
      rw [if_neg]
      simpa [eqc] using h2
    rw [this, hn.skipcom]
  · simp only [sepText, if_true]
    rw [skipbl_cons _ (by decide)]
    have : optDrop false ['='] ('=' :: c :: r) = c :: r := by simp [optDrop, eqc]
    rw [this, hn.skipcom]

theorem term_sep (q : Bool) (t : List Char) : isTerm (sepText q :: t) = true := by cases q <;> rfl

section table
variable {table : List (List Char × Act)} {ns : Names} (ht : Fits table ns)

theorem isArg_append (w t : List Char) (hw : w ≠ []) : isArg (w ++ t) = isArg w := by
  obtain ⟨c, r, rfl⟩ := List.exists_cons_of_ne_nil hw
  rfl

theorem traceWords_sound : ∀ c ∈ traceWords, Opt.sound (c.1 ++ [' ']) = true := by
  have : (traceWords.all fun c => Opt.sound (c.1 ++ [' '])) = true := by decide +kernel
  exact List.all_eq_true.mp this

theorem trace_checked : ((traceNames.flatMap fun e => spelled e.1 e.2.1).all fun t => Opt.isWord t &&
    [(0 : ℤ), 1, 2, 3].any (fun z => decide (traceMeant t = some (traceOf z)) && Opt.chooses false traceWords t z && Opt.chooses true traceWords t z)) = true := by
  decide +kernel

theorem trace_choice (t : List Char) (x : Trace) (h : traceMeant t = some x) : Opt.Word t ∧ ∃ z, traceOf z = x ∧
    ∀ ci, Opt.chooses ci traceWords t z = true := by
  have hm : t ∈ traceNames.flatMap fun e => spelled e.1 e.2.1 := by
    unfold traceMeant at h
    rcases hf : traceNames.find? (fun e => (spelled e.1 e.2.1).contains t) with _ | e
    · rw [hf] at h; cases h
    · obtain ⟨h1, -⟩ := List.find?_eq_some_iff_append.mp hf
      exact List.mem_flatMap.mpr ⟨e, List.mem_of_find?_eq_some hf, List.contains_iff_mem.mp h1⟩
  have := List.all_eq_true.mp trace_checked t hm
  simp only [Bool.and_eq_true, List.any_eq_true, decide_eq_true_eq] at this
  obtain ⟨h1, z, -, ⟨h2, h3⟩, h4⟩ := this
  refine ⟨Opt.word_of h1, z, by rw [h] at h2; cases h2; rfl, fun ci => ?_⟩
  cases ci
  · exact h3
  · exact h4

theorem word_head {w : List Char} (hw : Opt.Word w) (t : List Char) : ∃ c r, w ++ t = c :: r ∧ isGraph c = true ∧ c ≠ ',' ∧ c ≠ '=' := by
  obtain ⟨c, r, rfl⟩ := List.exists_cons_of_ne_nil hw.1
  have := hw.2 c (by simp)
  refine ⟨c, r ++ t, rfl, this.1, ?_, ?_⟩ <;> (rintro rfl; exact absurd this.2 (by decide))

theorem numeral_head (n : Numeral) (hn : n.Wf) (s : List Char) : ∃ c r, n.text ++ s = c :: r ∧ isFloat c = true ∧ isGraph c = true ∧ c ≠ ',' ∧ c ≠ '=' := by
  obtain ⟨c, r, e, h⟩ := n.head hn s
  exact ⟨c, r, e, h, (float_graph h).1, (float_graph h).2.1, (float_graph h).2.2.1⟩

include ht in
theorem item_head (lead : Bool) (i : Item) (hi : i.Good lead ns) (s : List Char) : ∃ c r, i.text ++ s = c :: r ∧ isGraph c = true ∧ c ≠ ',' ∧ c ≠ '=' := by
  cases i with
  | num w q n =>
    obtain ⟨⟨a, hm, -, -⟩, -, -⟩ := hi
    simp only [Item.text, List.append_assoc]
    exact word_head (ht.of hm).1 _
  | flag w on =>
    obtain ⟨f, hm⟩ := hi
    cases on
    · exact word_head (ht.of hm).2.1 s
    · exact word_head (ht.of hm).1 s
  | is w t =>
    obtain ⟨⟨f, hm⟩, -⟩ := hi
    simp only [Item.text, List.append_assoc]
    exact word_head (ht.of hm).1 _
  | trace w q t =>
    simp only [Item.text, List.append_assoc]
    exact word_head (ht.of hi.1).1 _
  | bare n =>
    obtain ⟨c, r, e, h⟩ := numeral_head n hi.2 s
    exact ⟨c, r, e, h.2⟩

include ht in
theorem item_follows (lead : Bool) (i : Item) (hi : i.Good lead ns) (s : List Char) : Follows (i.text ++ s) := by
  obtain ⟨c, r, e, h1, h2, h3⟩ := item_head ht lead i hi s
  rw [e]
  exact ⟨.inr ⟨c, r, rfl, h1, h2⟩, by simpa using h3⟩

/-- words for yes and no -/
theorem bool_choice (t : List Char) (h : t ∈ Opt.yesWords ∨ t ∈ Opt.noWords) : Opt.Word t ∧ ∃ z : ℤ, (z != 0) = decide (t ∈ Opt.yesWords) ∧
    ∀ ci, Opt.chooses ci Opt.boolWords t z = true := by
  have hy : ∀ t ∈ Opt.yesWords, decide (t ∈ Opt.yesWords) = true := by decide +kernel
  have hn : ∀ t ∈ Opt.noWords, decide (t ∈ Opt.yesWords) = false := by decide +kernel
  rcases h with h | h
  · have := List.all_eq_true.mp Opt.yes_checked t h
    simp only [Bool.and_eq_true] at this
    refine ⟨Opt.word_of this.1.1, 1, by rw [hy t h]; rfl, fun ci => ?_⟩
    cases ci
    · exact this.1.2
    · exact this.2
  · have := List.all_eq_true.mp Opt.no_checked t h
    simp only [Bool.and_eq_true] at this
    refine ⟨Opt.word_of this.1.1, 0, by rw [hn t h]; rfl, fun ci => ?_⟩
    cases ci
    · exact this.1.2
    · exact this.2

include ht in
theorem tryAll_item (e : Env) (st : St) (i : Item) (lead : Bool) (hi : i.Good lead ns) (hb : ∀ n, i ≠ .bare n) (t : List Char) (hf : Follows t) :
    tryAll e st (i.text ++ gap t) table = some (i.does e ns st, t) := by
  cases i with
  | num w q n =>
    obtain ⟨⟨a, hm, ha, haf⟩, hn, -⟩ := hi
    obtain ⟨c, r, ec, -, h1, h2, h3⟩ := numeral_head n hn (gap t)
    have hx : (Item.num w q n).text ++ gap t = w ++ sepText q :: (n.text ++ gap t) := by simp [Item.text]
    rw [hx, tryAll_word ht e st w _ a hm (term_sep q _)]
    have hbh : behind a (sepText q :: (n.text ++ gap t)) = n.text ++ gap t := by rw [ec]; exact behind_num haf q c r h1 h2 h3
    rw [hbh]
    have hs := stops_gap t
    cases a with
    | flag f => exact absurd rfl (haf f)
    | trace => exact absurd rfl ha
    | step m => simp [Act.run, parse_numeral _ _ _ n hn _ hs, Item.does, hm, skipcom_gap hf]
    | start => simp [Act.run, parse_numeral _ _ _ n hn _ hs, Item.does, hm, skipcom_gap hf]
    | stop => simp [Act.run, parse_numeral _ _ _ n hn _ hs, Item.does, hm, skipcom_gap hf]
    | dtemp => simp [Act.run, number_numeral _ n hn _ hs, Item.does, hm, skipcom_gap hf, add_comm]
    | temp => simp [Act.run, number_numeral _ n hn _ hs, Item.does, hm, skipcom_gap hf]
  | flag w on =>
    obtain ⟨f, hm⟩ := hi
    have hset : ∀ b, st.setFlag f b = { st with flag := fun g => if g = f then b else st.flag g } := by
      intro b
      unfold St.setFlag
      congr 1
      funext g
      simp [Function.update_apply]
    cases on
    · have := tryAll_no ht e st w (gap t) f hm (term_gap t)
      simp only [Item.text, Bool.false_eq_true, if_false, Item.does, hm]
      rw [this, skipcom_gap hf, hset]
    · simp only [Item.text, if_true, List.nil_append, Item.does, hm]
      rw [tryAll_word ht e st w (gap t) _ hm (term_gap t)]
      have hbh : behind (.flag f) (gap t) = t := by simp only [behind]; rw [skipbl_gap hf, hf.next.skipcom]
      rw [hbh]
      have hsk : skip1b ['='] t = (false, t) := by
        rcases hf.next with rfl | ⟨c, r, rfl, h1, h2⟩
        · rfl
        · exact skip1b_miss _ _ _ h1 (by
            have h3 := hf.eq
            simp only [List.head?_cons, ne_eq, Option.some.injEq] at h3
            simpa using h3)
      simp only [Act.run, hsk, Bool.false_eq_true, if_false, hset]
  | is w x =>
    obtain ⟨⟨f, hm⟩, hx⟩ := hi
    obtain ⟨hxw, z, hz, hch⟩ := bool_choice x hx
    have hset : ∀ b, st.setFlag f b = { st with flag := fun g => if g = f then b else st.flag g } := by
      intro b
      unfold St.setFlag
      congr 1
      funext g
      simp [Function.update_apply]
    have hxt : (Item.is w x).text ++ gap t = w ++ '=' :: (x ++ gap t) := by simp [Item.text]
    rw [hxt, tryAll_word ht e st w _ _ hm rfl]
    have hbh : behind (.flag f) ('=' :: (x ++ gap t)) = '=' :: (x ++ gap t) := by
      have h1 : skipbl ('=' :: (x ++ gap t)) = '=' :: (x ++ gap t) := skipbl_cons _ (by decide)
      simp only [behind]
      rw [h1]
      unfold skipcom
      rw [h1]
      rfl
    rw [hbh]
    have h3 : skip1b ['='] ('=' :: (x ++ gap t)) = (true, x ++ gap t) := by
      unfold skip1b
      rw [skipbl_cons _ (by decide)]
      simp [match1, hxw.skipbl]
    have h4 : Opt.ctob e.ci (x ++ gap t) = (decide (x ∈ Opt.yesWords), t) := by
      have := Opt.choose_name e.ci x (gap t) hxw (term_gap t) z Opt.boolWords Opt.bool_sound (hch e.ci)
      unfold Opt.ctob
      rw [hxw.skipbl, this]
      simp only [hz]
      rw [skipbl_gap hf, hf.next.skipcom, hf.next.skipcom]
    simp only [Act.run, h3, if_true, h4, Item.does, hm, hset]
  | trace w q x =>
    obtain ⟨hm, hx⟩ := hi
    obtain ⟨y, hy⟩ := Option.ne_none_iff_exists'.mp hx
    obtain ⟨hxw, z, hz, hch⟩ := trace_choice x y hy
    obtain ⟨c, r, ec, h1, h2, h3⟩ := word_head hxw (gap t)
    have hxt : (Item.trace w q x).text ++ gap t = w ++ sepText q :: (x ++ gap t) := by simp [Item.text]
    rw [hxt, tryAll_word ht e st w _ _ hm (term_sep q _)]
    have hbh : behind .trace (sepText q :: (x ++ gap t)) = x ++ gap t := by rw [ec]; exact behind_num (by simp) q c r h1 h2 h3
    rw [hbh]
    have := Opt.choose_name e.ci x (gap t) hxw (term_gap t) z traceWords traceWords_sound (hch e.ci)
    simp only [Act.run, this, Item.does, hy, hz]
    rw [skipbl_gap hf, hf.next.skipcom]
  | bare n => exact absurd rfl (hb n)

include ht in
theorem round_item (lead : Bool) (e : Env) (st : St) (i : Item) (hi : i.Good lead ns) (t : List Char) (hf : Follows t) :
    round lead table e st (i.text ++ gap t) = some (i.does e ns st, t) := by
  by_cases hb : ∃ n, i = .bare n
  · obtain ⟨n, rfl⟩ := hb
    obtain ⟨hl, hn⟩ := hi
    obtain ⟨c, r, ec, h, -⟩ := numeral_head n hn (gap t)
    show round lead table e st (n.text ++ gap t) = _
    unfold round
    have hx : lead = true ∧ isArg (n.text ++ gap t) = true := ⟨hl, by rw [ec]; exact isArg_float h r⟩
    rw [if_pos hx, parse_numeral _ _ _ n hn _ (stops_gap t), skipcom_gap hf]
    rfl
  · have hb' : ∀ n, i ≠ .bare n := fun n hn => hb ⟨n, hn⟩
    have ha : ¬ (lead = true ∧ isArg (i.text ++ gap t) = true) := by
      rintro ⟨hl, ha⟩
      cases i with
      | num w q n =>
        obtain ⟨⟨a, hm, -, -⟩, -, hp⟩ := hi
        simp only [Item.text, List.append_assoc] at ha
        rw [isArg_append _ _ (ht.of hm).1.1] at ha
        exact hp hl ((ht.of hm).2.2.1 ha).1
      | flag w on =>
        obtain ⟨f, hm⟩ := hi
        cases on
        · simp only [Item.text] at ha
          cases ha
        · simp only [Item.text, if_true, List.nil_append] at ha
          rw [isArg_append _ _ (ht.of hm).1.1] at ha
          cases ((ht.of hm).2.2.1 ha).2
      | is w t =>
        obtain ⟨⟨f, hm⟩, -⟩ := hi
        simp only [Item.text, List.append_assoc] at ha
        rw [isArg_append _ _ (ht.of hm).1.1] at ha
        cases ((ht.of hm).2.2.1 ha).2
      | trace w q x =>
        simp only [Item.text, List.append_assoc] at ha
        rw [isArg_append _ _ (ht.of hi.1).1.1] at ha
        cases ((ht.of hi.1).2.2.1 ha).2
      | bare n => exact hb' n rfl
    unfold round
    rw [if_neg ha]
    exact tryAll_item ht e st i lead hi hb' t hf

/-! ## The loop -/

/-- text the loop leaves as it is -/
def Left (lead : Bool) (table : List (List Char × Act)) (e : Env) (z : List Char) : Prop := ∀ st, round lead table e st z = some (st, z)

include ht in
theorem line_follows (lead : Bool) (z : List Char) (hz : Follows z) : ∀ (l : List Item), (∀ i ∈ l, i.Good lead ns) → Follows (lineText l z)
  | [], _ => hz
  | i :: l, h => item_follows ht lead i (h i (by simp)) _

theorem gap_len (t : List Char) : t.length ≤ (gap t).length := by
  unfold gap
  split
  · rename_i h; simp [h]
  · simp

include ht in
theorem item_len (lead : Bool) (i : Item) (hi : i.Good lead ns) : 0 < i.text.length := by
  obtain ⟨c, r, e, -⟩ := item_head ht lead i hi []
  rw [List.append_nil] at e
  rw [e]
  simp

include ht in
theorem line_len (lead : Bool) (z : List Char) : ∀ (l : List Item), (∀ i ∈ l, i.Good lead ns) → l.length + z.length ≤ (lineText l z).length
  | [], _ => by simp [lineText]
  | i :: l, h => by
    have h1 := line_len lead z l (fun j hj => h j (by simp [hj]))
    have h2 := item_len ht lead i (h i (by simp))
    have h3 := gap_len (lineText l z)
    simp only [lineText, List.length_append, List.length_cons]
    omega

include ht in
theorem loop_items (lead : Bool) (e : Env) (z : List Char) (hz : Follows z) (hq : Left lead table e z) : ∀ (l : List Item) (n : ℕ) (st : St),
    (∀ i ∈ l, i.Good lead ns) → l.length < n →
    loop lead table e n st (lineText l z).length (lineText l z) = .done (l.foldl (Item.does e ns) st) z
  | _, 0, _, _, hn => by omega
  | [], n + 1, st, _, _ => by
    simp only [lineText, loop, hq st, hz.next.skipbl, List.foldl_nil]
    split
    · rename_i h; rw [h]
    · simp
  | i :: l, n + 1, st, h, hn => by
    have hl : ∀ j ∈ l, j.Good lead ns := fun j hj => h j (by simp [hj])
    have hi := h i (by simp)
    have hf := line_follows ht lead z hz l hl
    have h2 := item_len ht lead i hi
    have h3 := gap_len (lineText l z)
    have h4 := line_len ht lead z l hl
    rw [lineText, loop, round_item ht lead e st i hi _ hf]
    simp only [hf.next.skipbl, List.foldl_cons]
    split
    · rename_i h0
      rw [h0] at h4
      simp only [List.length_nil, Nat.le_zero, Nat.add_eq_zero_iff, List.length_eq_zero_iff] at h4
      rw [h4.1, h4.2]
      rfl
    · have : (lineText l z).length < (i.text ++ gap (lineText l z)).length := by
        rw [List.length_append]; omega
      rw [if_pos this]
      exact loop_items lead e z hz hq l n _ hl (by simpa using hn)

include ht in
/-- the options of a line -/
theorem options_items (lead : Bool) (e : Env) (z : List Char) (hz : Follows z) (hq : Left lead table e z) (l : List Item) (st : St)
    (h : ∀ i ∈ l, i.Good lead ns) : options lead table e st (lineText l z) = .done (l.foldl (Item.does e ns) st) z := by
  have h4 := line_len ht lead z l h
  exact loop_items ht lead e z hz hq l _ st h (by omega)

theorem loop_ends (lead : Bool) (table : List (List Char × Act)) (e : Env) : ∀ (n : ℕ) (st : St) (here : ℕ) (s : List Char), here < n →
    loop lead table e n st here s ≠ .running
  | 0, _, _, _, h => by omega
  | n + 1, st, here, s, h => by
    rw [loop]
    split
    · simp
    · split
      · simp
      · split
        · exact loop_ends lead table e n _ _ _ (by omega)
        · simp

/-- **C88, the end of the options**: whatever the line, the loop over the options ends. -/
theorem options_ends (lead : Bool) (table : List (List Char × Act)) (e : Env) (st : St) (s : List Char) : options lead table e st s ≠ .running :=
  loop_ends lead table e _ st _ s (by omega)

/-! ## Text that is not for the options -/

/-- the same text, up to case if case does not matter -/
def Like (ci : Bool) (w s : List Char) : Prop := List.Forall₂ (fun a b => eqc ci a b = true) w s

/-- no word of the options, and not beginning with `no` and the letters a flag must have -/
structure Free (ci : Bool) (ns : Names) (w : List Char) : Prop where
  word : Opt.Word w
  not : ∀ e ∈ ns, ∀ s ∈ spelled e.1 e.2.1, ¬ Like ci w s
  no : ∀ e ∈ ns, ∀ f, e.2.2 = .flag f → ∀ p, p <+: w → ¬ Like ci p (['n', 'o'] ++ e.1)

def optSeg (may : List Char) : List Seg := if may = [] then [] else [.opt may]

/-- the table as it should be -/
def Written (table : List (List Char × Act)) (ns : Names) : Prop :=
  table.map (fun x => (x.2, Opt.segsOf none (x.2.pattern x.1), Opt.segsOf none (['n', 'o'] ++ x.1))) =
    ns.map (fun e => (e.2.2, e.1.map .lit ++ (optSeg e.2.1 ++ ending e.2.2), (['n', 'o'] ++ e.1).map .lit ++ optSeg e.2.1))

theorem ac_written : Written acTable acNames := by unfold Written; decide +kernel
theorem dc_written : Written dcTable dcNames := by unfold Written; decide +kernel
theorem step_written : Written stepTable stepNames := by unfold Written; decide +kernel

theorem fails_lits (ci : Bool) (q : List Seg) : ∀ (m w : List Char), Opt.fails ci (m.map .lit ++ q) w = false →
    ∃ a b, w = a ++ b ∧ Like ci a m ∧ Opt.fails ci q b = false
  | [], w, h => ⟨[], w, rfl, .nil, h⟩
  | c :: m, [], h => by simp [Opt.fails] at h
  | c :: m, d :: w, h => by
    simp only [List.map_cons, List.cons_append, Opt.fails] at h
    split at h
    · rename_i hc
      obtain ⟨a, b, h1, h2, h3⟩ := fails_lits ci q m w h
      exact ⟨d :: a, b, by simp [h1], .cons hc h2, h3⟩
    · cases h

theorem optDrop_all (ci : Bool) : ∀ (o w : List Char), optDrop ci o w = [] → ∃ k, Like ci w (o.take k)
  | [], w, h => by
    have : w = [] := by simpa [optDrop] using h
    exact ⟨0, by rw [this]; exact .nil⟩
  | c :: o, [], _ => ⟨0, .nil⟩
  | c :: o, d :: w, h => by
    simp only [optDrop] at h
    split at h
    · rename_i hc
      obtain ⟨k, hk⟩ := optDrop_all ci o w h
      exact ⟨k + 1, by rw [List.take_succ_cons]; exact .cons hc hk⟩
    · cases h

theorem like_append {ci : Bool} {a b c d : List Char} (h1 : Like ci a b) (h2 : Like ci c d) : Like ci (a ++ c) (b ++ d) :=
  List.rel_append h1 h2

theorem free_miss (ci : Bool) (w : List Char) (hw : Free ci ns w) (ht : Written table ns) (x : List Char × Act) (hx : x ∈ table) : miss ci w x = true := by
  have hm : (x.2, Opt.segsOf none (x.2.pattern x.1), Opt.segsOf none (['n', 'o'] ++ x.1)) ∈
      ns.map (fun e => (e.2.2, e.1.map .lit ++ (optSeg e.2.1 ++ ending e.2.2), (['n', 'o'] ++ e.1).map .lit ++ optSeg e.2.1)) := by
    rw [← show _ = _ from ht]
    exact List.mem_map.mpr ⟨x, hx, rfl⟩
  obtain ⟨e, he, hq⟩ := List.mem_map.mp hm
  simp only [Prod.mk.injEq] at hq
  obtain ⟨q1, q2, q3⟩ := hq
  unfold miss
  have h1 : Opt.fails ci (Opt.segsOf none (x.2.pattern x.1)) w = true := by
    rw [← q2]
    by_contra hc
    obtain ⟨a, b, h1, h2, h3⟩ := fails_lits ci _ _ _ (Bool.eq_false_iff.mpr hc)
    have hdel : ∀ t, Opt.fails ci (ending e.2.2) t = false → t = [] := by
      intro t h
      cases t with
      | nil => rfl
      | cons d t => cases hh : e.2.2 <;> simp [hh, ending, Opt.fails] at h
    have hb : ∃ k, Like ci b (e.2.1.take k) := by
      unfold optSeg at h3
      split at h3
      · rw [List.nil_append] at h3
        rw [hdel _ h3]
        exact ⟨0, .nil⟩
      · simp only [List.cons_append, List.nil_append, Opt.fails] at h3
        exact optDrop_all ci _ _ (hdel _ h3)
    obtain ⟨k, hk⟩ := hb
    refine hw.not e he (e.1 ++ e.2.1.take k) ?_ ?_
    · exact List.mem_map.mpr ⟨_, by rw [List.mem_inits]; exact List.take_prefix _ _, rfl⟩
    · rw [h1]
      exact like_append h2 hk
  rw [h1, Bool.true_and]
  split
  · rename_i f hf
    rw [← q3]
    by_contra hc
    obtain ⟨a, b, h1, h2, -⟩ := fails_lits ci _ _ _ (Bool.eq_false_iff.mpr hc)
    exact hw.no e he f (by rw [q1, hf]) a ⟨b, h1.symm⟩ h2
  · rfl

include ht in
/-- **C88, words the options do not know**: they go to `outset`, and nothing is set. -/
theorem free_left (hwr : Written table ns) (e : Env) (st : St) (w rest : List Char) (hw : Free e.ci ns w) (hr : isTerm rest = true) :
    tryAll e st (w ++ rest) table = some (st, e.outset (w ++ rest)) := by
  have := tryAll_misses ht e st w rest hw.word hr [] table (fun x hx => ⟨hx, free_miss e.ci w hw hwr x hx⟩)
  rw [List.append_nil] at this
  rw [this, tryAll]

include ht in
theorem nil_left (hwr : Written table ns) (hne : ∀ e ∈ ns, e.1 ≠ []) (e : Env) (st : St) : tryAll e st [] table = some (st, e.outset []) := by
  have hm : ∀ l : List (List Char × Act), (∀ x ∈ l, x ∈ table) → tryAll e st [] l = some (st, e.outset []) := by
    intro l
    induction l with
    | nil => intro _; rfl
    | cons x l ih =>
      intro h
      obtain ⟨s1, s2⟩ := ht.snd (h x (by simp))
      have hmm : (x.2, Opt.segsOf none (x.2.pattern x.1), Opt.segsOf none (['n', 'o'] ++ x.1)) ∈
          ns.map (fun e => (e.2.2, e.1.map .lit ++ (optSeg e.2.1 ++ ending e.2.2), (['n', 'o'] ++ e.1).map .lit ++ optSeg e.2.1)) := by
        rw [← show _ = _ from hwr]
        exact List.mem_map.mpr ⟨x, h x (by simp), rfl⟩
      obtain ⟨y, hy, hq⟩ := List.mem_map.mp hmm
      simp only [Prod.mk.injEq] at hq
      obtain ⟨q1, q2, q3⟩ := hq
      obtain ⟨c, m, hc⟩ := List.exists_cons_of_ne_nil (hne y hy)
      have u1 : umatch e.ci (x.2.pattern x.1) [] = .fail := by
        rw [Opt.umatch_sound _ _ _ s1, ← q2, hc]
        rfl
      have u2 : umatch e.ci (['n', 'o'] ++ x.1) [] = .fail := by
        rw [Opt.umatch_sound _ _ _ s2, ← q3]
        rfl
      have ih := ih (fun y hy => h y (by simp [hy]))
      obtain ⟨key, a⟩ := x
      cases a with
      | flag f => simp only at u1 u2; simp only [tryAll, u1, u2]; exact ih
      | _ => simp only at u1; simp only [tryAll, u1]; exact ih
  exact hm table (fun x hx => hx)

end table

/-! ## AC -/

/-- numbers with blanks between, and a text behind -/
def numsText : List Numeral → List Char → List Char
  | [], z => z
  | n :: l, z => n.text ++ gap (numsText l z)

/-- what numbers at the beginning do: one is start and stop, two are start and stop, a third is the step -/
def numsDo (u : Units) (st : St) : List Numeral → St
  | [] => st
  | [a] => { st with start := .num (a.value u), stop := .num (a.value u) }
  | [a, b] => { st with start := .num (a.value u), stop := .num (b.value u) }
  | a :: b :: c :: _ => { st with start := .num (a.value u), stop := .num (b.value u), stepIn := .num (c.value u), mode := .linStep }

theorem numeral_follows (n : Numeral) (hn : n.Wf) (s : List Char) : Follows (n.text ++ s) := by
  obtain ⟨c, r, e, h, h1, h2, h3⟩ := numeral_head n hn s
  rw [e]
  exact ⟨.inr ⟨c, r, rfl, h1, h2⟩, by simpa using h3⟩

theorem nums_follows (z : List Char) (hz : Follows z) : ∀ (l : List Numeral), (∀ n ∈ l, n.Wf) → Follows (numsText l z)
  | [], _ => hz
  | n :: l, h => numeral_follows n (h n (by simp)) _

theorem numbers_text (third : Bool) (e : Env) (st : St) (l : List Numeral) (z : List Char) (hl : ∀ n ∈ l, n.Wf) (hn : l.length ≤ if third then 3 else 2)
    (hz : Follows z) (ha : l.length < (if third then 3 else 2) → isArg z = false) : numbers third e st (numsText l z) = some (numsDo e.units st l, z) := by
  have hA : ∀ (n : Numeral), n.Wf → ∀ s, isArg (n.text ++ s) = true := by
    intro n hn s
    obtain ⟨c, r, e, h, -⟩ := numeral_head n hn s
    rw [e]
    exact isArg_float h r
  have hP : ∀ (n : Numeral) (old : Param) (t : List Char), n.Wf → Follows t → parse e.units e.ci old (n.text ++ gap t) = some (.num (n.value e.units), t) := by
    intro n old t hn hf
    rw [parse_numeral _ _ _ n hn _ (stops_gap t), skipcom_gap hf]
  match l, hl with
  | [], _ =>
    have := ha (by cases third <;> decide)
    simp [numbers, numsText, numsDo, this]
  | [a], h =>
    have h1 := h a (by simp)
    have hza := ha (by cases third <;> simp)
    simp [numbers, numsText, numsDo, hA a h1, hP a _ z h1 hz, hza]
  | [a, b], h =>
    have h1 := h a (by simp)
    have h2 := h b (by simp)
    have hf := numeral_follows b h2 (gap z)
    cases third
    · simp [numbers, numsText, numsDo, hA a h1, hP a _ _ h1 hf, hA b h2, hP b _ z h2 hz]
    · have hza := ha (by simp)
      simp [numbers, numsText, numsDo, hA a h1, hP a _ _ h1 hf, hA b h2, hP b _ z h2 hz, hza]
  | [a, b, c], h =>
    have h1 := h a (by simp)
    have h2 := h b (by simp)
    have h3 := h c (by simp)
    have hf := numeral_follows b h2 (gap (c.text ++ gap z))
    have hg := numeral_follows c h3 (gap z)
    cases third
    · simp at hn
    · simp [numbers, numsText, numsDo, hA a h1, hP a _ _ h1 hf, hA b h2, hP b _ _ h2 hg, hA c h3, hP c _ z h3 hz]
  | a :: b :: c :: d :: l, _ => cases third <;> (simp at hn; try omega)

/-- a step in front of the numbers -/
def HeadGood (i : Item) : Prop := ∃ w q n m, i = .num w q n ∧ n.Wf ∧ meant stepNames w = some (.step m)

/-- an item that is not a step -/
def Item.NotStep (ns : Names) : Item → Prop
  | .num w _ _ => ∀ m, meant ns w ≠ some (.step m)
  | .bare _ => False
  | _ => True

theorem step_in_ac : ((words stepNames).all fun w => decide (meant stepNames w = meant acNames w)) = true := by decide +kernel

theorem others_miss : ((words acNames).all fun w =>
    (match meant acNames w with | some (.step _) => true | _ => stepTable.all fun x => miss false w x && miss true w x) &&
    (stepTable.all fun x => miss false (['n', 'o'] ++ w) x && miss true (['n', 'o'] ++ w) x) && !isArg (['n', 'o'] ++ w)) = true := by decide +kernel

/-- what does not begin with a step is left to the numbers -/
theorem no_head (e : Env) (st : St) (w rest : List Char) (hw : Opt.Word w) (hr : isTerm rest = true) (h : ∀ x ∈ stepTable, miss e.ci w x = true) :
    tryAll { e with outset := id } st (w ++ rest) stepTable = some (st, w ++ rest) := by
  have := tryAll_misses step_fits { e with outset := id } st w rest hw hr [] stepTable (fun x hx => ⟨hx, h x hx⟩)
  rw [List.append_nil] at this
  rw [this, tryAll]
  rfl

theorem no_head_item (e : Env) (st : St) (i : Item) (hi : i.Good false acNames) (hs : i.NotStep acNames) (t : List Char) :
    tryAll { e with outset := id } st (i.text ++ gap t) stepTable = some (st, i.text ++ gap t) := by
  have hall := List.all_eq_true.mp others_miss
  have hci : ∀ w x, (miss false w x && miss true w x) = true → miss e.ci w x = true := by
    intro w x h
    rw [Bool.and_eq_true] at h
    cases e.ci
    · exact h.1
    · exact h.2
  have h1 : ∀ w a, meant acNames w = some a → (∀ m, a ≠ .step m) → ∀ x ∈ stepTable, miss e.ci w x = true := by
    intro w a hm ha x hx
    have := hall w (meant_words _ _ _ hm)
    rw [hm] at this
    simp only [Bool.and_eq_true] at this
    have h2 := this.1.1
    cases a with
    | step m => exact absurd rfl (ha m)
    | _ => exact hci w x (List.all_eq_true.mp h2 x hx)
  cases i with
  | num w q n =>
    obtain ⟨⟨a, hm, -, -⟩, -, -⟩ := hi
    have hx : (Item.num w q n).text ++ gap t = w ++ sepText q :: (n.text ++ gap t) := by simp [Item.text]
    rw [hx]
    exact no_head e st w _ (ac_fits.of hm).1 (term_sep q _) (h1 w a hm (fun m h => hs m (by rw [hm, h])))
  | flag w on =>
    obtain ⟨f, hm⟩ := hi
    cases on
    · refine no_head e st (['n', 'o'] ++ w) _ (ac_fits.of hm).2.1 (term_gap t) (fun x hx => ?_)
      have := hall w (meant_words _ _ _ hm)
      simp only [Bool.and_eq_true] at this
      exact hci _ x (List.all_eq_true.mp this.1.2 x hx)
    · exact no_head e st w _ (ac_fits.of hm).1 (term_gap t) (h1 w _ hm (by simp))
  | is w x =>
    obtain ⟨⟨f, hm⟩, -⟩ := hi
    have hxt : (Item.is w x).text ++ gap t = w ++ '=' :: (x ++ gap t) := by simp [Item.text]
    rw [hxt]
    exact no_head e st w _ (ac_fits.of hm).1 rfl (h1 w _ hm (by simp))
  | trace w q x =>
    obtain ⟨hm, -⟩ := hi
    have hxt : (Item.trace w q x).text ++ gap t = w ++ sepText q :: (x ++ gap t) := by simp [Item.text]
    rw [hxt]
    exact no_head e st w _ (ac_fits.of hm).1 (term_sep q _) (h1 w _ hm (by simp))
  | bare n => exact absurd hs id

theorem float_head (ci : Bool) {c : Char} (h : isFloat c = true) (d : Char) (hd : d ∈ ['*', 'b', 's', 'd', 't', 'l', 'o']) : eqc ci c d = false := by
  have hall : ∀ c : Char, ([(false, '*'), (true, '*'), (false, 'b'), (true, 'b'), (false, 's'), (true, 's'), (false, 'd'), (true, 'd'), (false, 't'),
      (true, 't'), (false, 'l'), (true, 'l'), (false, 'o'), (true, 'o')].all fun x => !eqc x.1 c x.2) = true → eqc ci c d = false := by
    intro c h
    have h2 := List.all_eq_true.mp h (ci, d) (by
      simp only [List.mem_cons, List.not_mem_nil, or_false] at hd
      rcases hd with rfl | rfl | rfl | rfl | rfl | rfl | rfl <;> cases ci <;> decide)
    simpa using h2
  apply hall
  simp only [isFloat, Bool.or_eq_true, beq_iff_eq] at h
  rcases h with ((h | rfl) | rfl) | rfl
  · simp only [isDigit, Bool.and_eq_true, decide_eq_true_eq] at h
    have hc : c = Char.ofNat c.toNat := by simp
    obtain ⟨k, hk⟩ : ∃ k, c.toNat = k := ⟨_, rfl⟩
    rw [hk] at h hc
    obtain ⟨h1, h2⟩ := h
    subst hc
    interval_cases k <;> decide +kernel
  all_goals decide +kernel

theorem float_plus (ci : Bool) {c : Char} (h : isFloat c = true) (hc : c ≠ '+') : eqc ci c '+' = false := by
  simp only [isFloat, Bool.or_eq_true, beq_iff_eq] at h
  rcases h with ((h | rfl) | rfl) | rfl
  · simp only [isDigit, Bool.and_eq_true, decide_eq_true_eq] at h
    have hc : c = Char.ofNat c.toNat := by simp
    obtain ⟨k, hk⟩ : ∃ k, c.toNat = k := ⟨_, rfl⟩
    rw [hk] at h hc
    obtain ⟨h1, h2⟩ := h
    subst hc
    cases ci <;> interval_cases k <;> decide
  · exact absurd rfl hc
  all_goals cases ci <;> decide

/-- behind a plus sign a number goes on -/
theorem numeral_plus (n : Numeral) (hn : n.Wf) (s : List Char) (c : Char) (r : List Char) (h : n.text ++ s = c :: r) (hc : c = '+') : isTerm r = false := by
  subst hc
  have hd : ∀ d, d < 10 → isTermChar (dchar d) = false ∧ dchar d ≠ '+' := fun d h => by
    have := float_graph (c := dchar d) (by unfold isFloat; rw [isDigit_dchar d h]; rfl)
    refine ⟨this.2.2.2.1, fun he => ?_⟩
    have h2 := isDigit_dchar d h
    rw [he] at h2
    exact absurd h2 (by decide)
  unfold Numeral.text at h
  have key : ∀ t : List Char, n.ip.map dchar ++ ((if n.dot then ['.'] else []) ++ t) = '+' :: r → False := by
    intro t h
    cases hi : n.ip with
    | cons d l =>
      rw [hi] at h
      simp only [List.map_cons, List.cons_append, List.cons.injEq] at h
      exact (hd d (hn.ip d (by simp [hi]))).2 h.1
    | nil =>
      cases hdot : n.dot with
      | true => simp [hi, hdot] at h
      | false =>
        rcases hn.some_digit with h | h
        · exact h hi
        · exact h (hn.frac hdot)
  cases hs : n.sgn with
  | none =>
    exfalso
    apply key (n.fp.map dchar ++ n.suf.text ++ s)
    simpa [hs, sgnText] using h
  | some b =>
    cases b with
    | true => simp [hs, sgnText] at h
    | false =>
      simp only [hs, sgnText, List.cons_append, List.nil_append, List.cons.injEq, true_and, List.append_assoc] at h
      rw [← h]
      cases hi : n.ip with
      | cons d l => exact (hd d (hn.ip d (by simp [hi]))).1
      | nil =>
        cases hdot : n.dot with
        | true => rfl
        | false =>
          exfalso
          rcases hn.some_digit with h | h
          · exact h hi
          · exact h (hn.frac hdot)

theorem steps_heads : (stepTable.all fun x => match x.2, Opt.segsOf none (x.2.pattern x.1) with
    | .step _, .lit h :: q => decide (h ∈ ['*', 'b', 's', 'd', 't', 'l', 'o']) || decide (h = '+' ∧ q = [.delim, .opt ['=']])
    | _, _ => false) = true := by decide +kernel

theorem no_head_numeral (e : Env) (st : St) (n : Numeral) (hn : n.Wf) (t : List Char) :
    tryAll { e with outset := id } st (n.text ++ t) stepTable = some (st, n.text ++ t) := by
  obtain ⟨c, r, ec, hc, hg, -, -⟩ := numeral_head n hn t
  have hp := numeral_plus n hn t c r ec
  rw [ec]
  have hm : ∀ x ∈ stepTable, ∃ key m, x = (key, .step m) ∧ umatch e.ci (Act.pattern key (.step m)) (c :: r) = .fail := by
    intro x hx
    have h1 := List.all_eq_true.mp steps_heads x hx
    obtain ⟨key, a⟩ := x
    cases a with
    | step m =>
      refine ⟨key, m, rfl, ?_⟩
      rw [Opt.umatch_sound _ _ _ (step_fits.snd hx).1, skipbl_cons _ hg]
      simp only at h1
      rcases hseg : Opt.segsOf none (Act.pattern key (.step m)) with _ | ⟨h, q⟩
      · simp [hseg] at h1
      · cases h with
        | lit h =>
          simp only [hseg, Bool.or_eq_true, decide_eq_true_eq] at h1
          rcases h1 with h1 | ⟨rfl, rfl⟩
          · simp [segMatch, float_head e.ci hc h h1]
          · by_cases hcp : c = '+'
            · subst hcp
              simp [segMatch, eqc, hp rfl]
            · simp [segMatch, float_plus e.ci hc hcp]
        | opt o => simp [hseg] at h1
        | delim => simp [hseg] at h1
    | _ => simp at h1
  have : ∀ l : List (List Char × Act), (∀ x ∈ l, x ∈ stepTable) → tryAll { e with outset := id } st (c :: r) l = some (st, c :: r) := by
    intro l
    induction l with
    | nil => intro _; rfl
    | cons x l ih =>
      intro h
      obtain ⟨key, m, rfl, hu⟩ := hm x (h x (by simp))
      simp only [tryAll, hu]
      exact ih (fun y hy => h y (by simp [hy]))
  exact this stepTable (fun x hx => hx)

/-! ## Lines -/

theorem not_arg_of_word {w : List Char} (h : isArg w = false) (hw : w ≠ []) (rest : List Char) : isArg (w ++ rest) = false := by
  rw [isArg_append _ _ hw, h]

theorem ac_not_plus : ((words acNames).all fun w => decide (w = ['+']) || !isArg w) = true := by decide +kernel

/-- a line of options does not begin like a number -/
def Item.Plain : Item → Prop
  | .num w _ _ => w ≠ ['+']
  | .bare _ => False
  | _ => True

theorem item_not_arg {table : List (List Char × Act)} {ns : Names} (ht : Fits table ns) (lead : Bool) (i : Item) (hi : i.Good lead ns) (hp : i.Plain)
    (s : List Char) : isArg (i.text ++ s) = false := by
  by_contra hc
  rw [Bool.not_eq_false] at hc
  cases i with
  | num w q n =>
    obtain ⟨⟨a, hm, -, -⟩, -, -⟩ := hi
    simp only [Item.text, List.append_assoc] at hc
    rw [isArg_append _ _ (ht.of hm).1.1] at hc
    exact hp ((ht.of hm).2.2.1 hc).1
  | flag w on =>
    obtain ⟨f, hm⟩ := hi
    cases on
    · simp only [Item.text] at hc
      cases hc
    · simp only [Item.text, if_true, List.nil_append] at hc
      rw [isArg_append _ _ (ht.of hm).1.1] at hc
      cases ((ht.of hm).2.2.1 hc).2
  | is w t =>
    obtain ⟨⟨f, hm⟩, -⟩ := hi
    simp only [Item.text, List.append_assoc] at hc
    rw [isArg_append _ _ (ht.of hm).1.1] at hc
    cases ((ht.of hm).2.2.1 hc).2
  | trace w q x =>
    simp only [Item.text, List.append_assoc] at hc
    rw [isArg_append _ _ (ht.of hi.1).1.1] at hc
    cases ((ht.of hi.1).2.2.1 hc).2
  | bare n => exact hp

/-- What stands behind the options: nothing, or a word they do not know and that does not begin like a number -/
inductive Tail (e : Env) (ns : Names) : List Char → Prop
  | nil : e.outset [] = [] → Tail e ns []
  | word (w rest : List Char) : Free e.ci ns w → isArg w = false → isTerm rest = true → e.outset (w ++ rest) = w ++ rest → Tail e ns (w ++ rest)

theorem Tail.follows {e : Env} {ns : Names} {z : List Char} (h : Tail e ns z) : Follows z := by
  cases h with
  | nil => exact ⟨.inl rfl, by simp⟩
  | word w rest hw =>
    obtain ⟨c, r, ec, h1, h2, h3⟩ := word_head hw.word rest
    rw [ec]
    exact ⟨.inr ⟨c, r, rfl, h1, h2⟩, by simpa using h3⟩

theorem Tail.notArg {e : Env} {ns : Names} {z : List Char} (h : Tail e ns z) : isArg z = false := by
  cases h with
  | nil => rfl
  | word w rest hw ha => exact not_arg_of_word ha hw.word.1 rest

theorem Tail.left {table : List (List Char × Act)} {ns : Names} (ht : Fits table ns) (hwr : Written table ns) (hne : ∀ e ∈ ns, e.1 ≠ []) (lead : Bool)
    {e : Env} {z : List Char} (h : Tail e ns z) : Left lead table e z := by
  intro st
  have ha := h.notArg
  unfold round
  rw [if_neg (by rintro ⟨-, h⟩; rw [ha] at h; cases h)]
  cases h with
  | nil h => rw [nil_left ht hwr hne, h]
  | word w rest hw _ hr ho => rw [free_left ht hwr e st w rest hw hr, ho]

theorem ac_ne : ∀ e ∈ acNames, e.1 ≠ [] := by decide +kernel
theorem dc_ne : ∀ e ∈ dcNames, e.1 ≠ [] := by decide +kernel
theorem step_ne : ∀ e ∈ stepNames, e.1 ≠ [] := by decide +kernel

theorem Free.step {ci : Bool} {w : List Char} (h : Free ci acNames w) : Free ci stepNames w :=
  have hs : ∀ e ∈ stepNames, e ∈ acNames := fun e he => List.mem_append_left _ he
  ⟨h.word, fun e he => h.not e (hs e he), fun e he => h.no e (hs e he)⟩

/-- A line for AC: maybe a step, up to three numbers, options, and what stands behind -/
structure AcLine where
  head : Option Item
  nums : List Numeral
  items : List Item
  rest : List Char

def AcLine.text (l : AcLine) : List Char := lineText l.head.toList (numsText l.nums (lineText l.items l.rest))

structure AcLine.Good (e : Env) (l : AcLine) : Prop where
  head : ∀ i, l.head = some i → HeadGood i
  nums : l.nums.length ≤ 3 ∧ ∀ n ∈ l.nums, n.Wf
  items : ∀ i ∈ l.items, i.Good false acNames
  rest : Tail e acNames l.rest
  /-- a `+` directly behind the numbers would be one -/
  plus : l.nums.length < 3 → ∀ i, l.items.head? = some i → i.Plain
  /-- a step in front of the numbers is the head -/
  first : l.head = none → l.nums = [] → ∀ i, l.items.head? = some i → i.NotStep acNames

/-- what the line means: the step in front, the numbers, the options, in this order -/
def AcLine.does (e : Env) (plotOn : Bool) (st : St) (l : AcLine) : St :=
  l.items.foldl (Item.does e acNames) (numsDo e.units
    (l.head.toList.foldl (Item.does e acNames) { st with flag := fun g => if g = .plot then plotOn else st.flag g }) l.nums)

theorem step_does (e : Env) (st : St) (w : List Char) (q : Bool) (n : Numeral) (m : Mode) (h : meant stepNames w = some (.step m)) :
    Item.does e stepNames st (.num w q n) = Item.does e acNames st (.num w q n) := by
  have := List.all_eq_true.mp step_in_ac w (meant_words _ _ _ h)
  simp only [decide_eq_true_eq] at this
  simp only [Item.does, this]

/-- **C88, the line of AC**: it sets what its parts mean. -/
theorem ac_line (e : Env) (plotOn : Bool) (st : St) (l : AcLine) (h : l.Good e) : ac e plotOn st l.text = .done (l.does e plotOn st) l.rest := by
  have hz := h.rest.follows
  have hq := h.rest.left ac_fits ac_written ac_ne false
  have hi := line_follows ac_fits false l.rest hz l.items h.items
  have hnf := nums_follows _ hi l.nums h.nums.2
  have hset : st.setFlag .plot plotOn = { st with flag := fun g => if g = .plot then plotOn else st.flag g } := by
    unfold St.setFlag
    congr 1
    funext g
    simp [Function.update_apply]
  have hhead : tryAll { e with outset := id } (st.setFlag .plot plotOn) l.text stepTable =
      some (l.head.toList.foldl (Item.does e acNames) { st with flag := fun g => if g = .plot then plotOn else st.flag g },
        numsText l.nums (lineText l.items l.rest)) := by
    rw [hset]
    rcases hh : l.head with _ | i
    · unfold AcLine.text
      simp only [hh, Option.toList_none, lineText, List.foldl_nil]
      rcases hn : l.nums with _ | ⟨n, r⟩
      · simp only [numsText]
        rcases hil : l.items with _ | ⟨i, r⟩
        · simp only [lineText]
          rcases hr : l.rest with _ | ⟨c, t⟩
          · rw [nil_left step_fits step_written step_ne]
            rfl
          · have ht := h.rest
            rw [hr] at ht
            generalize hz2 : c :: t = z at ht
            cases ht with
            | nil => cases hz2
            | word w rest hw _ hrt _ => rw [free_left step_fits step_written { e with outset := id } _ w rest hw.step hrt]; rfl
        · exact no_head_item e _ i (h.items i (by simp [hil])) (h.first hh hn i (by simp [hil])) _
      · exact no_head_numeral e _ n (h.nums.2 n (by simp [hn])) _
    · obtain ⟨w, q, n, m, rfl, hw, hm⟩ := h.head i hh
      unfold AcLine.text
      simp only [hh, Option.toList_some, lineText, List.foldl_cons, List.foldl_nil]
      rw [tryAll_item step_fits { e with outset := id } _ (.num w q n) false ⟨⟨_, hm, by simp, by simp⟩, hw, by simp⟩ (by simp) _ hnf,
        ← step_does e _ w q n m hm]
      rfl
  unfold ac
  rw [hhead]
  simp only
  rw [numbers_text true e _ l.nums _ h.nums.2 h.nums.1 hi]
  · simp only
    rw [options_items ac_fits false e l.rest hz hq l.items _ h.items]
    rfl
  · intro hlt
    rcases hil : l.items with _ | ⟨i, r⟩
    · exact h.rest.notArg
    · exact item_not_arg ac_fits false i (h.items i (by simp [hil])) (h.plus hlt i (by simp [hil])) _

/-- A line for OP: up to two numbers, options, and what stands behind -/
structure OpLine where
  nums : List Numeral
  items : List Item
  rest : List Char

def OpLine.text (l : OpLine) : List Char := numsText l.nums (lineText l.items l.rest)

structure OpLine.Good (e : Env) (l : OpLine) : Prop where
  nums : l.nums.length ≤ 2 ∧ ∀ n ∈ l.nums, n.Wf
  items : ∀ i ∈ l.items, i.Good true dcNames
  rest : Tail e dcNames l.rest
  /-- a number directly behind one number would be the stop -/
  plain : l.nums.length < 2 → ∀ i, l.items.head? = some i → i.Plain

/-- what it means; the temperature is that of the options, the flags are off, nothing is traced -/
def OpLine.does (e : Env) (st : St) (l : OpLine) : St :=
  l.items.foldl (Item.does e dcNames) { numsDo e.units st l.nums with
    temp := e.optTemp, trace := .none, flag := fun g => if g = .cont ∨ g = .loop ∨ g = .reverse then false else st.flag g }

theorem numsDo_other (u : Units) (st : St) (t : ℚ) (x : Trace) (f : Flag → Bool) : ∀ l : List Numeral,
    numsDo u { st with temp := t, trace := x, flag := f } l = { numsDo u st l with temp := t, trace := x, flag := f }
  | [] => rfl
  | [_] => rfl
  | [_, _] => rfl
  | _ :: _ :: _ :: _ => rfl

/-- **C88, the line of OP** -/
theorem op_line (e : Env) (st : St) (l : OpLine) (h : l.Good e) : op e st l.text = .done (l.does e st) l.rest := by
  have hz := h.rest.follows
  have hq := h.rest.left dc_fits dc_written dc_ne true
  have hi := line_follows dc_fits true l.rest hz l.items h.items
  unfold op OpLine.text
  rw [numbers_text false e _ l.nums _ h.nums.2 h.nums.1 hi]
  · simp only
    rw [options_items dc_fits true e l.rest hz hq l.items _ h.items]
    unfold OpLine.does
    congr 2
    have := numsDo_other e.units st e.optTemp .none (Function.update st.flag .cont false) l.nums
    simp only [St.setFlag] at this ⊢
    rw [this]
    congr 1
    funext g
    cases g <;> rfl
  · intro hlt
    rcases hil : l.items with _ | ⟨i, r⟩
    · exact h.rest.notArg
    · exact item_not_arg dc_fits true i (h.items i (by simp [hil])) (h.plain hlt i (by simp [hil])) _

/-! ## DC -/

/-- the name stands for this: an element, or a parameter with a value where there is no such element -/
def Knows (k : Ckt) (w : List Char) : Sweep.Arg → Prop
  | .element i => ∀ t, Next t → k.find (w ++ ' ' :: t) = some (true, i, t)
  | .param p => (∀ t, Next t → k.find (w ++ ' ' :: t) = none) ∧ Spice.Plain w ∧ isAlphaHead w = true ∧ k.hard w = some p
  | _ => False

/-- One level of a line: a name, from, to, options -/
structure Lv where
  name : List Char
  arg : Sweep.Arg
  a : Numeral
  b : Numeral
  items : List Item

def Lv.text (l : Lv) (z : List Char) : List Char := l.name ++ ' ' :: (l.a.text ++ gap (l.b.text ++ gap (lineText l.items z)))

def dcText : List Lv → List Char
  | [] => []
  | l :: r => l.text (dcText r)

structure Lv.Good (k : Ckt) (l : Lv) : Prop where
  word : Opt.Word l.name
  known : Knows k l.name l.arg
  a : l.a.Wf
  b : l.b.Wf
  items : ∀ i ∈ l.items, i.Good true dcNames

/-- the name is not one of the options before it -/
structure Lv.Later (e : Env) (l : Lv) : Prop where
  free : Free e.ci dcNames l.name
  arg : isArg l.name = false
  out : ∀ t, e.outset (l.name ++ ' ' :: t) = l.name ++ ' ' :: t

/-- what the options of a level see: the new range, and the step as it was -/
def Lv.before (e : Env) (d : Dc) (i : ℕ) (l : Lv) : St :=
  { start := .num (l.a.value e.units), stop := .num (l.b.value e.units), stepIn := (d.lev i).stepIn, mode := (d.lev i).mode,
    temp := d.temp, flag := fun f => if f = .cont then d.cont else false, trace := d.trace }

def Lv.after (e : Env) (d : Dc) (i : ℕ) (l : Lv) : St := l.items.foldl (Item.does e dcNames) (l.before e d i)

/-- what a name makes of what was swept: an element takes the place of all, a parameter only that of a parameter -/
def aims (k : Ckt) (old : Sweep.Target (List Char)) : Sweep.Arg → Sweep.Target (List Char)
  | .element i => ⟨some i, none⟩
  | .param p => ⟨old.zap, some (p, k.val p)⟩
  | _ => old

/-- what a level does -/
def Lv.does (e : Env) (k : Ckt) (d : Dc) (i : ℕ) (l : Lv) : Dc :=
  { lev := fun j => if j = i then
      { start := (l.after e d i).start, stop := (l.after e d i).stop, stepIn := (l.after e d i).stepIn, mode := (l.after e d i).mode,
        loop := (l.after e d i).flag .loop, reverse := (l.after e d i).flag .reverse, target := aims k (d.lev i).target l.arg } else d.lev j,
    n := d.n, temp := (l.after e d i).temp, cont := (l.after e d i).flag .cont, trace := (l.after e d i).trace }

def levelsDo (e : Env) (k : Ckt) : ℕ → Dc → List Lv → Dc
  | _, d, [] => d
  | i, d, l :: r => levelsDo e k (i + 1) (l.does e k d i) r

theorem target_known (k : Ckt) (w : List Char) (x : Sweep.Arg) (h : Knows k w x) (hw : Opt.Word w) (t : List Char) (ht : Next t) :
    target k (w ++ ' ' :: t) = some (x, t) := by
  unfold target
  cases x with
  | element i => rw [h t ht]
  | param p =>
    obtain ⟨h1, h2, h3, h4⟩ := h
    rw [h1 t ht]
    obtain ⟨c, r, rfl⟩ := List.exists_cons_of_ne_nil hw.1
    have h5 : isFloatHead (c :: r ++ ' ' :: t) = false := by
      by_contra hc
      have hf : isFloat c = true := by simpa [isFloatHead] using hc
      have ha : isAlpha c = true := h3
      exact absurd ha (by
        simp only [isFloat, Bool.or_eq_true, beq_iff_eq] at hf
        rcases hf with ((hf | rfl) | rfl) | rfl
        · simp only [isDigit, Bool.and_eq_true, decide_eq_true_eq] at hf
          have hc : c = Char.ofNat c.toNat := by simp
          obtain ⟨k, hk⟩ : ∃ k, c.toNat = k := ⟨_, rfl⟩
          rw [hk] at hf hc
          obtain ⟨h1, h2⟩ := hf
          subst hc
          interval_cases k <;> decide
        all_goals decide)
    have h6 : isAlphaHead (c :: r ++ ' ' :: t) = true := h3
    have h7 := word_plain (c :: r) (' ' :: t) h2 rfl
    have h8 : skipcom (' ' :: t) = t := by
      have : skipcom (' ' :: t) = skipcom t := by unfold skipcom; rw [skipbl_blank]
      rw [this, ht.skipcom]
    simp only [h5, h6, h7, h4, h8, Bool.false_eq_true, if_false, if_true]
  | number => exact absurd h id
  | other => exact absurd h id

theorem level_text (e : Env) (k : Ckt) (d : Dc) (i : ℕ) (l : Lv) (z : List Char) (h : l.Good k) (hz : Follows z) (hq : Left true dcTable e z) :
    level e k d i (l.text z) = .done (l.does e k d i) z := by
  have hi := line_follows dc_fits true z hz l.items h.items
  have hb := numeral_follows l.b h.b (gap (lineText l.items z))
  have ha := numeral_follows l.a h.a (gap (l.b.text ++ gap (lineText l.items z)))
  unfold level Lv.text
  rw [target_known k l.name l.arg h.known h.word _ ha.next]
  have hA : isArg (l.a.text ++ gap (l.b.text ++ gap (lineText l.items z))) = true := by
    obtain ⟨c, r, ec, hc, -⟩ := numeral_head l.a h.a (gap (l.b.text ++ gap (lineText l.items z)))
    rw [ec]
    exact isArg_float hc r
  have hr : range e (d.st i) (l.a.text ++ gap (l.b.text ++ gap (lineText l.items z))) = some (l.before e d i, lineText l.items z) := by
    unfold range
    rw [hA, if_pos rfl, parse_numeral _ _ _ l.a h.a _ (stops_gap _), skipcom_gap hb]
    simp only [Option.bind_some]
    rw [parse_numeral _ _ _ l.b h.b _ (stops_gap _), skipcom_gap hi]
    simp only [Option.map_some, Option.some.injEq, Prod.mk.injEq, and_true]
    unfold Lv.before Dc.st
    congr 1
    funext f
    cases f <;> rfl
  simp only [hr]
  rw [options_items dc_fits true e z hz hq l.items _ h.items]
  simp only
  congr 1
  unfold Dc.put Lv.does
  congr 1
  funext j
  simp only [Function.update_apply]
  split
  · unfold Lv.after
    congr 1
    cases hx : l.arg with
    | element i => rfl
    | param p => rfl
    | number => exact absurd h.known (by rw [hx]; exact id)
    | other => rfl
  · rfl

theorem dcText_tail (e : Env) (ho : e.outset [] = []) : ∀ (l : List Lv), (∀ x ∈ l, x.Later e) → Tail e dcNames (dcText l)
  | [], _ => .nil ho
  | x :: l, h => by
    have hx := h x (by simp)
    exact .word x.name _ hx.free hx.arg rfl (hx.out _)

theorem levels_text (e : Env) (k : Ckt) (ho : e.outset [] = []) : ∀ (l : List Lv) (m i : ℕ) (d : Dc), (∀ x ∈ l, x.Good k) → (∀ x ∈ l.tail, x.Later e) →
    l.length ≤ m → levels e k m i d (dcText l) = .done { levelsDo e k i d l with n := i + l.length } []
  | [], 0, i, d, _, _, _ => rfl
  | [], m + 1, i, d, _, _, _ => rfl
  | x :: l, 0, i, d, _, _, h => by simp at h
  | x :: l, m + 1, i, d, hg, hl, hm => by
    have hx := hg x (by simp)
    have ht := dcText_tail e ho l (fun y hy => hl y hy)
    have hf : Follows (dcText (x :: l)) := by
      obtain ⟨c, r, ec, h1, h2, h3⟩ := word_head hx.word (' ' :: (x.a.text ++ gap (x.b.text ++ gap (lineText x.items (dcText l)))))
      show Follows (x.text (dcText l))
      unfold Lv.text
      rw [ec]
      exact ⟨.inr ⟨c, r, rfl, h1, h2⟩, by simpa using h3⟩
    have hne : dcText (x :: l) ≠ [] := by
      show x.text (dcText l) ≠ []
      unfold Lv.text
      have := hx.word.1
      simp
    rw [levels, hf.next.skipbl, if_neg hne]
    rw [show dcText (x :: l) = x.text (dcText l) from rfl, level_text e k d i x (dcText l) hx ht.follows (ht.left dc_fits dc_written dc_ne true)]
    simp only
    rw [levels_text e k ho l m (i + 1) _ (fun y hy => hg y (by simp [hy])) (fun y hy => hl y (List.mem_of_mem_tail hy)) (by simpa using hm)]
    rw [show i + 1 + l.length = i + (x :: l).length by rw [List.length_cons]; omega]
    rfl

/-- **C88, the line of DC**: up to four levels, by name, each with its range and its options. -/
theorem dc_line (e : Env) (k : Ckt) (ho : e.outset [] = []) (d : Dc) (l : List Lv) (hne : l ≠ []) (hg : ∀ x ∈ l, x.Good k) (hl : ∀ x ∈ l.tail, x.Later e)
    (hm : l.length ≤ 4) :
    dc e k d (dcText l) = .done { levelsDo e k 0 { d with temp := e.optTemp, cont := false, trace := .none } l with n := l.length } [] := by
  have hk : skipbl (dcText l) ≠ [] := by
    obtain ⟨x, r, rfl⟩ := List.exists_cons_of_ne_nil hne
    have hx := hg x (by simp)
    obtain ⟨c, t, ec, h1, -⟩ := word_head hx.word (' ' :: (x.a.text ++ gap (x.b.text ++ gap (lineText x.items (dcText r)))))
    show skipbl (x.text (dcText r)) ≠ []
    unfold Lv.text
    rw [ec, skipbl_cons _ h1]
    simp
  have := levels_text e k ho l 4 0 { d with temp := e.optTemp, cont := false, trace := .none } hg hl hm
  unfold dc
  simp only [hk, if_false]
  rw [this, Nat.zero_add]

/-! ## What follows for users -/

/-- a step word, and its mode -/
theorem step_does_eq (e : Env) (st : St) (w : List Char) (q : Bool) (n : Numeral) (m : Mode) (h : meant stepNames w = some (.step m)) :
    Item.does e acNames st (.num w q n) = { st with stepIn := .num (n.value e.units), mode := m } := by
  rw [← step_does e st w q n m h]
  simp only [Item.does, h]

/-- **C88, a step before or behind**: with up to two numbers the step may stand before or behind them. -/
theorem ac_step_anywhere (e : Env) (plotOn : Bool) (st : St) (i : Item) (hi : HeadGood i) (nums : List Numeral) (hn : nums.length ≤ 2)
    (items : List Item) (z : List Char) :
    AcLine.does e plotOn st ⟨some i, nums, items, z⟩ = AcLine.does e plotOn st ⟨none, nums, i :: items, z⟩ := by
  obtain ⟨w, q, n, m, rfl, -, hm⟩ := hi
  simp only [AcLine.does, Option.toList_some, Option.toList_none, List.foldl_cons, List.foldl_nil, step_does_eq e _ w q n m hm]
  match nums, hn with
  | [], _ => rfl
  | [_], _ => rfl
  | [_, _], _ => rfl
  | _ :: _ :: _ :: _, h => simp at h

/-- **C88, points per decade**: the frequencies of a line with a start, a stop and points per decade, from the text on. -/
theorem ac_decade_text (e : Env) (ho : e.outset [] = []) (plotOn : Bool) (st : St) (w : List Char) (q : Bool) (hw : meant stepNames w = some (.step .decade))
    (a b n : Numeral) (ha : a.Wf) (hb : b.Wf) (hn : n.Wf) (m : ℕ) (hm : 0 < m) (hv : n.value e.units = m) (h0 : 0 < a.value e.units)
    (h1 : 0 < b.value e.units) (before : Bool) :
    ∃ st', ac e plotOn st (if before then w ++ sepText q :: (n.text ++ ' ' :: (a.text ++ ' ' :: b.text))
        else a.text ++ ' ' :: (b.text ++ ' ' :: (w ++ sepText q :: n.text))) = .done st' [] ∧
      ∃ start stop step : ℚ, st'.start = .num start ∧ st'.stop = .num stop ∧ st'.stepIn = .num step ∧
        ∀ fuel : ℕ, Sweep.acLast (m * Real.logb 10 ((b.value e.units : ℝ) / (a.value e.units : ℝ))) < fuel →
          Sweep.acVisits (Sweep.acSetup st'.mode start stop step) fuel =
            some ((List.range (Sweep.acLast (m * Real.logb 10 ((b.value e.units : ℝ) / (a.value e.units : ℝ))) + 1)).map fun i : ℕ =>
              (a.value e.units : ℝ) * 10 ^ ((i : ℝ) / m)) := by
  have hne : ∀ (x : Numeral), x.Wf → x.text ≠ [] := by
    intro x hx he
    obtain ⟨c, r, ec, -⟩ := x.head hx []
    rw [he] at ec
    cases ec
  have hwac : meant acNames w = some (.step .decade) := by
    have := List.all_eq_true.mp step_in_ac w (meant_words _ _ _ hw)
    simp only [decide_eq_true_eq] at this
    rw [← this, hw]
  have hplus : w ≠ ['+'] := by
    rintro rfl
    exact absurd hw (by decide +kernel)
  have hwne := (step_fits.of hw).1.1
  have hd := Sweep.ac_decade (a.value e.units : ℝ) (b.value e.units : ℝ) m hm (by exact_mod_cast h0) (by exact_mod_cast h1)
  have hv' : ((n.value e.units : ℚ) : ℝ) = (m : ℝ) := by rw [hv]; simp
  cases before
  · have hg : AcLine.Good e ⟨none, [a, b], [.num w q n], []⟩ := by
      refine ⟨by simp, ⟨by simp, by simp [ha, hb]⟩, ?_, .nil ho, ?_, by simp⟩
      · intro i hi
        simp only [List.mem_singleton] at hi
        subst hi
        exact ⟨⟨_, hwac, by simp, by simp⟩, hn, by simp⟩
      · intro _ i hi
        simp only [List.head?_cons, Option.some.injEq] at hi
        subst hi
        exact hplus
    have ht : AcLine.text ⟨none, [a, b], [.num w q n], []⟩ = a.text ++ ' ' :: (b.text ++ ' ' :: (w ++ sepText q :: n.text)) := by
      simp [AcLine.text, numsText, lineText, gap, Item.text, hne b hb]
    have := ac_line e plotOn st _ hg
    rw [ht] at this
    refine ⟨_, by simpa using this, a.value e.units, b.value e.units, n.value e.units, ?_, ?_, ?_, ?_⟩
    · simp [AcLine.does, numsDo, Item.does, hwac]
    · simp [AcLine.does, numsDo, Item.does, hwac]
    · simp [AcLine.does, numsDo, Item.does, hwac]
    · intro fuel hf
      have hmode : (AcLine.does e plotOn st ⟨none, [a, b], [.num w q n], []⟩).mode = .decade := by simp [AcLine.does, numsDo, Item.does, hwac]
      rw [hmode, hv']
      exact hd fuel hf
  · have hg : AcLine.Good e ⟨some (.num w q n), [a, b], [], []⟩ := by
      refine ⟨?_, ⟨by simp, by simp [ha, hb]⟩, by simp, .nil ho, by simp, by simp⟩
      intro i hi
      cases hi
      exact ⟨w, q, n, _, rfl, hn, hw⟩
    have ht : AcLine.text ⟨some (.num w q n), [a, b], [], []⟩ = w ++ sepText q :: (n.text ++ ' ' :: (a.text ++ ' ' :: b.text)) := by
      simp [AcLine.text, numsText, lineText, gap, Item.text, hne a ha, hne b hb]
    have := ac_line e plotOn st _ hg
    rw [ht] at this
    refine ⟨_, by simpa using this, a.value e.units, b.value e.units, n.value e.units, ?_, ?_, ?_, ?_⟩
    · simp [AcLine.does, numsDo]
    · simp [AcLine.does, numsDo]
    · simp [AcLine.does, numsDo, Item.does, hwac]
    · intro fuel hf
      have hmode : (AcLine.does e plotOn st ⟨some (.num w q n), [a, b], [], []⟩).mode = .decade := by simp [AcLine.does, numsDo, Item.does, hwac]
      rw [hmode, hv']
      exact hd fuel hf

/-- **C88, what AC keeps**: a line with one or two numbers keeps the step and the mode of an earlier line; a line without
anything keeps the range as well. -/
theorem ac_keeps (e : Env) (ho : e.outset [] = []) (plotOn : Bool) (st : St) (nums : List Numeral) (hn : ∀ n ∈ nums, n.Wf) (h2 : nums.length ≤ 2) :
    ∃ st', ac e plotOn st (numsText nums []) = .done st' [] ∧ st'.stepIn = st.stepIn ∧ st'.mode = st.mode ∧ st'.temp = st.temp ∧
      st'.flag .prevop = st.flag .prevop ∧ (nums = [] → st'.start = st.start ∧ st'.stop = st.stop) := by
  have hg : AcLine.Good e ⟨none, nums, [], []⟩ := ⟨by simp, ⟨by simp; omega, hn⟩, by simp, .nil ho, by simp, by simp⟩
  have := ac_line e plotOn st _ hg
  refine ⟨_, this, ?_⟩
  match nums, h2 with
  | [], _ => simp [AcLine.does, numsDo]
  | [_], _ => simp [AcLine.does, numsDo]
  | [_, _], _ => simp [AcLine.does, numsDo]
  | _ :: _ :: _ :: _, h => simp at h

/-! ## Where it goes wrong -/

/-- the text that `+` and a blank are: a number without digits -/
theorem plus_is_number (u : Units) (c : Char) (r : List Char) (hg : isGraph c = true) (hc : c ≠ ',') : ctof u ('+' :: ' ' :: c :: r) = .num 0 (c :: r) := by
  have hs : skipbl ('+' :: ' ' :: c :: r) = '+' :: ' ' :: c :: r := skipbl_cons _ (by decide)
  have h1 : sign ('+' :: ' ' :: c :: r) = (false, ' ' :: c :: r) := rfl
  have h2 : digits 0 (' ' :: c :: r) = (0, ' ' :: c :: r) := rfl
  have h3 : (skip1 ['.'] (' ' :: c :: r)).getD (' ' :: c :: r) = ' ' :: c :: r := rfl
  have h4 : fracDigits 0 1 (' ' :: c :: r) = (0, 1, ' ' :: c :: r) := rfl
  have h5 : scale u (' ' :: c :: r) = some (1, ' ' :: c :: r) := by cases u <;> rfl
  have h6 : skipcom (' ' :: c :: r) = c :: r := by
    have : skipcom (' ' :: c :: r) = skipcom (c :: r) := by unfold skipcom; rw [skipbl_blank]
    rw [this, (show Next (c :: r) from .inr ⟨c, r, rfl, hg, hc⟩).skipcom]
  have h7 : (' ' :: c :: r).dropWhile isAlpha = ' ' :: c :: r := rfl
  unfold ctof
  simp only [hs, show isFloat '+' = true from rfl, if_true, h1, h2, h3, h4, h5, h7, h6]
  simp

/-- **C88, a defect**: `+` behind two numbers of AC is not the step it is elsewhere; it is taken for a number without digits.
The step is zero, and the number behind it is left. -/
theorem ac_plus_wrong (e : Env) (plotOn : Bool) (st : St) (a b c : Numeral) (ha : a.Wf) (hb : b.Wf) (hc : c.Wf) (hf : Free e.ci acNames c.text)
    (ho : e.outset c.text = c.text) :
    ∃ st', ac e plotOn st (a.text ++ ' ' :: (b.text ++ ' ' :: '+' :: ' ' :: c.text)) = .done st' c.text ∧ st'.stepIn = .num 0 ∧ st'.mode = .linStep := by
  have hcf : Follows c.text := by simpa using numeral_follows c hc []
  have hcn : c.text ≠ [] := hf.word.1
  have h0 := no_head_numeral e (st.setFlag .plot plotOn) a ha (' ' :: (b.text ++ ' ' :: '+' :: ' ' :: c.text))
  have hA : ∀ (n : Numeral), n.Wf → ∀ s, isArg (n.text ++ s) = true := by
    intro n hn s
    obtain ⟨c, r, e, h, -⟩ := numeral_head n hn s
    rw [e]
    exact isArg_float h r
  have hbf := numeral_follows b hb (' ' :: '+' :: ' ' :: c.text)
  have hpf : Follows ('+' :: ' ' :: c.text) := ⟨.inr ⟨_, _, rfl, by decide, by decide⟩, by simp⟩
  have pa : parse e.units e.ci st.start (a.text ++ ' ' :: (b.text ++ ' ' :: '+' :: ' ' :: c.text)) =
      some (.num (a.value e.units), b.text ++ ' ' :: '+' :: ' ' :: c.text) := by
    rw [← gap_ne (t := b.text ++ ' ' :: '+' :: ' ' :: c.text) (by simp), parse_numeral _ _ _ a ha _ (stops_gap _), skipcom_gap hbf]
  have pb : parse e.units e.ci st.stop (b.text ++ ' ' :: '+' :: ' ' :: c.text) = some (.num (b.value e.units), '+' :: ' ' :: c.text) := by
    rw [← gap_ne (t := '+' :: ' ' :: c.text) (by simp), parse_numeral _ _ _ b hb _ (stops_gap _), skipcom_gap hpf]
  have pc : parse e.units e.ci st.stepIn ('+' :: ' ' :: c.text) = some (.num 0, c.text) := by
    obtain ⟨d, r, ed, h, hg, hk, -⟩ := numeral_head c hc []
    rw [List.append_nil] at ed
    unfold parse
    rw [na_fails e.ci _ (by decide) (float_na e.ci (by decide)), ed, plus_is_number _ _ _ hg hk]
  have hn : numbers true e (st.setFlag .plot plotOn) (a.text ++ ' ' :: (b.text ++ ' ' :: '+' :: ' ' :: c.text)) =
      some ({ st.setFlag .plot plotOn with start := .num (a.value e.units), stop := .num (b.value e.units), stepIn := .num 0, mode := .linStep }, c.text) := by
    unfold numbers
    simp only [hA a ha, if_true]
    have pa' : parse e.units e.ci (st.setFlag .plot plotOn).start (a.text ++ ' ' :: (b.text ++ ' ' :: '+' :: ' ' :: c.text)) = _ := pa
    have pb' : parse e.units e.ci (st.setFlag .plot plotOn).stop (b.text ++ ' ' :: '+' :: ' ' :: c.text) = _ := pb
    have pc' : parse e.units e.ci (st.setFlag .plot plotOn).stepIn ('+' :: ' ' :: c.text) = _ := pc
    rw [pa']
    simp only [Option.bind_some, hA b hb, if_true]
    rw [pb']
    simp only [Option.bind_some]
    rw [if_pos (by exact ⟨trivial, rfl⟩), pc']
    rfl
  have hleft : Left false acTable e c.text := by
    intro st
    unfold round
    rw [if_neg (by simp)]
    have := free_left ac_fits ac_written e st c.text [] hf rfl
    rw [List.append_nil] at this
    rw [this, ho]
  refine ⟨?w, ?a, ?b⟩
  case a =>
    unfold ac
    rw [h0]
    simp only
    rw [hn]
    simp only
    exact options_items ac_fits false e c.text hcf hleft [] _ (by simp)
  case b => exact ⟨rfl, rfl⟩

/-- **C88, a defect**: a text that begins with `NA` is cut there. -/
theorem na_cuts (u : Units) (ci : Bool) (old : Param) (r : List Char) : parse u ci old ('N' :: 'A' :: r) = some (.na, skipcom r) := by
  have hm : umatch ci ['N', 'A'] ('N' :: 'A' :: r) = .ok (skipcom r) := by
    rw [Opt.umatch_sound _ _ _ na_sound, skipbl_cons _ (by decide)]
    have : Opt.segsOf none ['N', 'A'] = [.lit 'N', .lit 'A'] := by decide +kernel
    rw [this]
    simp [segMatch, eqc]
  unfold parse
  rw [hm]

theorem lineText_append (z : List Char) : ∀ (l m : List Item), (∀ i ∈ l, i.text ≠ []) → lineText (l ++ m) z = lineText l (lineText m z)
  | [], m, _ => rfl
  | i :: l, m, h => by
    rw [List.cons_append, lineText, lineText, lineText_append z l m (fun j hj => h j (by simp [hj]))]

/-- **C88, a defect**: an element that is named like a flag is not found at a second level; its range is taken for steps. -/
theorem dc_captured_wrong (e : Env) (k : Ckt) (ho : e.outset [] = []) (d : Dc) (x y : Lv) (f : Flag) (hx : x.Good k) (hy : y.Good k)
    (hm : meant dcNames y.name = some (.flag f)) :
    dc e k d (dcText [x, y]) = .done { Lv.does e k { d with temp := e.optTemp, cont := false, trace := .none } 0
      { x with items := x.items ++ (.flag y.name true :: .bare y.a :: .bare y.b :: y.items) } with n := 1 } [] := by
  have hne : ∀ (n : Numeral), n.Wf → ∀ t, n.text ++ t ≠ [] := by
    intro n hn t he
    obtain ⟨c, r, ec, -⟩ := n.head hn t
    rw [he] at ec
    cases ec
  have hg : Lv.Good k { x with items := x.items ++ (.flag y.name true :: .bare y.a :: .bare y.b :: y.items) } := by
    refine ⟨hx.word, hx.known, hx.a, hx.b, ?_⟩
    intro i hi
    simp only [List.mem_append, List.mem_cons] at hi
    rcases hi with hi | rfl | rfl | rfl | hi
    · exact hx.items i hi
    · exact ⟨f, hm⟩
    · exact ⟨rfl, hy.a⟩
    · exact ⟨rfl, hy.b⟩
    · exact hy.items i hi
  have ht : dcText [x, y] = dcText [{ x with items := x.items ++ (.flag y.name true :: .bare y.a :: .bare y.b :: y.items) }] := by
    simp only [dcText, Lv.text]
    rw [lineText_append [] x.items _ (by
      intro i hi he
      have := item_len dc_fits true i (hx.items i hi)
      rw [he] at this
      simp at this)]
    congr 6
    simp only [lineText, Item.text, if_true, List.nil_append]
    rw [gap_ne (hne y.a hy.a _)]
  rw [ht]
  exact dc_line e k ho d _ (by simp) (by simpa using hg) (by simp) (by simp)

/-- what a level keeps: all but the flags -/
def stale (l : Lev) : Lev := { l with loop := false, reverse := false }

theorem level_unknown (e : Env) (k : Ckt) (d : Dc) (i : ℕ) (z : List Char) (hz : Tail e dcNames z) (ht : target k z = some (.other, z)) :
    level e k d i z = .done { d with lev := fun j => if j = i then stale (d.lev j) else d.lev j } z := by
  unfold level
  rw [ht]
  simp only
  have hr : range e (d.st i) z = some (d.st i, z) := by
    unfold range
    rw [hz.notArg]
    simp
  have ho := options_items dc_fits true e z hz.follows (hz.left dc_fits dc_written dc_ne true) [] (d.st i) (by simp)
  simp only [lineText, List.foldl_nil] at ho
  rw [hr]
  simp only [ho]
  congr 1
  unfold Dc.put Dc.st
  simp only [Sweep.choose]
  congr 1
  funext j
  simp only [Function.update_apply, stale]
  split
  · rename_i h; rw [h]
  · rfl

theorem levels_unknown (e : Env) (k : Ckt) (z : List Char) (hne : z ≠ []) (hz : Tail e dcNames z) (ht : target k z = some (.other, z)) :
    ∀ (m i : ℕ) (d : Dc), levels e k m i d z =
      .done { d with lev := fun j => if i ≤ j ∧ j < i + m then stale (d.lev j) else d.lev j, n := i + m } z
  | 0, i, d => by
    rw [levels]
    congr 1
    congr 1
    funext j
    rw [if_neg (by omega)]
  | m + 1, i, d => by
    rw [levels, hz.follows.next.skipbl, if_neg hne, level_unknown e k d i z hz ht]
    simp only
    rw [levels_unknown e k z hne hz ht m (i + 1)]
    simp only
    congr 1
    rw [show i + 1 + m = i + (m + 1) by omega]
    congr 1
    funext j
    by_cases h1 : j = i
    · subst h1
      rw [if_neg (by omega), if_pos rfl, if_pos (by omega)]
    · simp only [h1, if_false]
      by_cases h2 : i + 1 ≤ j ∧ j < i + (m + 1)
      · rw [if_pos h2, if_pos (by omega)]
      · rw [if_neg h2, if_neg (by omega)]

/-- **C88, a defect**: a word that nobody knows behind a level is a level, and so it is three times: there are four sweeps, the
others with what earlier lines left. -/
theorem dc_unknown_wrong (e : Env) (k : Ckt) (d : Dc) (x : Lv) (z : List Char) (hx : x.Good k) (hne : z ≠ []) (hz : Tail e dcNames z)
    (ht : target k z = some (.other, z)) :
    ∃ d', dc e k d (x.text z) = .done d' z ∧ d'.n = 4 ∧ ∀ j, 1 ≤ j → j < 4 → d'.lev j = stale (d.lev j) := by
  have hk : skipbl (x.text z) = x.text z ∧ x.text z ≠ [] := by
    obtain ⟨c, t, ec, h1, -⟩ := word_head hx.word (' ' :: (x.a.text ++ gap (x.b.text ++ gap (lineText x.items z))))
    unfold Lv.text
    rw [ec, skipbl_cons _ h1]
    exact ⟨rfl, by simp⟩
  refine ⟨?w, ?a, ?b⟩
  case a =>
    unfold dc
    simp only
    rw [hk.1, if_neg hk.2, levels, hk.1, if_neg hk.2, level_text e k _ 0 x z hx hz.follows (hz.left dc_fits dc_written dc_ne true)]
    simp only
    exact levels_unknown e k z hne hz ht 3 1 _
  case b =>
    refine ⟨rfl, ?_⟩
    intro j h1 h4
    simp only
    rw [if_pos (by omega)]
    simp only [Lv.does]
    rw [if_neg (by omega)]

/-- a word where a number should be -/
theorem parse_word (u : Units) (ci : Bool) (old : Param) (c : Char) (w rest : List Char) (hw : Spice.Plain (c :: w)) (hr : rest.head? = none ∨ rest.head? = some ' ')
    (hf : isFloat c = false) (hn : eqc ci c 'N' = false) (hp : match1 ['('] (skipcom rest) = false) :
    parse u ci old (c :: w ++ rest) = some (.text (c :: w), skipcom rest) := by
  have hg := hw.graph c (by simp)
  have hcom : c ≠ ',' := by
    rintro rfl
    exact absurd (hw.noTerm ',' (by simp)) (by decide)
  have h1 : ctof u (c :: w ++ rest) = .none (c :: w ++ rest) := by
    have e1 : skipbl (c :: w ++ rest) = c :: w ++ rest := skipbl_cons _ hg
    rw [ctof_not_number u _ (by rw [e1]; intro d hd; cases hd; exact hf), e1]
    rw [(show Next (c :: w ++ rest) from .inr ⟨c, _, rfl, hg, hcom⟩).skipcom]
  have h2 : ctos [',', '=', '(', ')', ';'] quotes (c :: w ++ rest) = (c :: w, skipcom rest) := by
    refine ctos_plain _ _ _ _ hw.ne hw.graph ?_ ?_ ?_
    · intro d hd
      have := hw.noTerm d hd
      rw [← stops_word] at this
      unfold stops at this
      have := (Bool.or_eq_false_iff.mp this).2
      simp only [List.contains_cons, List.contains_nil, Bool.or_false, Bool.or_eq_false_iff] at this ⊢
      tauto
    · intro d hd
      have h1 : d ≠ '"' := fun e => hw.noQuote.1 (by rw [hd, e])
      have h2 : d ≠ '\'' := fun e => hw.noQuote.2 (by rw [hd, e])
      have h3 : d ≠ '{' := by
        intro e
        have := hw.noTerm d (List.mem_of_mem_head? hd)
        rw [e] at this
        cases this
      simp [quotes, List.lookup, beq_false_of_ne h1, beq_false_of_ne h2, beq_false_of_ne h3]
    · intro d hd
      rcases hr with hr | hr <;> rw [hr] at hd <;> cases hd
      rfl
  have h3 : umatch ci ['N', 'A'] (c :: w ++ rest) = .fail := na_fails ci _ hg hn
  unfold parse
  rw [h3, h1]
  simp only [h2, hp]
  have hna : c :: w ≠ ['N', 'A'] := by
    intro he
    cases he
    simp [eqc] at hn
  simp [hna]

/-- **C88, a defect**: in DC the stop is read without a look: a step word behind one number is taken for the stop, and the number
behind it for a linear step.  AC and OP look first (`ac_line`, `op_line`). -/
theorem dc_stop_wrong (e : Env) (k : Ckt) (ho : e.outset [] = []) (d : Dc) (name : List Char) (x : Sweep.Arg) (hk : Knows k name x) (hw : Opt.Word name)
    (a n : Numeral) (ha : a.Wf) (hn : n.Wf) :
    ∃ d', dc e k d (name ++ ' ' :: (a.text ++ ' ' :: 'd' :: 'e' :: 'c' :: ' ' :: n.text)) = .done d' [] ∧ (d'.lev 0).stop = .text ['d', 'e', 'c'] ∧
      (d'.lev 0).stepIn = .num (n.value e.units) ∧ (d'.lev 0).mode = .linStep := by
  have hnf : Follows n.text := by simpa using numeral_follows n hn []
  have hnn : n.text ≠ [] := by
    intro he
    obtain ⟨c, r, ec, -⟩ := n.head hn []
    rw [he] at ec
    cases ec
  have hdf : Follows ('d' :: 'e' :: 'c' :: ' ' :: n.text) := ⟨.inr ⟨_, _, rfl, by decide, by decide⟩, by simp⟩
  have haf := numeral_follows a ha (' ' :: 'd' :: 'e' :: 'c' :: ' ' :: n.text)
  have hsk : skipbl (name ++ ' ' :: (a.text ++ ' ' :: 'd' :: 'e' :: 'c' :: ' ' :: n.text)) = name ++ ' ' :: (a.text ++ ' ' :: 'd' :: 'e' :: 'c' :: ' ' :: n.text) ∧
      name ++ ' ' :: (a.text ++ ' ' :: 'd' :: 'e' :: 'c' :: ' ' :: n.text) ≠ [] := by
    obtain ⟨c, t, ec, h1, -⟩ := word_head hw (' ' :: (a.text ++ ' ' :: 'd' :: 'e' :: 'c' :: ' ' :: n.text))
    rw [ec, skipbl_cons _ h1]
    exact ⟨rfl, by simp⟩
  have hA : isArg (a.text ++ ' ' :: 'd' :: 'e' :: 'c' :: ' ' :: n.text) = true := by
    obtain ⟨c, r, e, h, -⟩ := numeral_head a ha (' ' :: 'd' :: 'e' :: 'c' :: ' ' :: n.text)
    rw [e]
    exact isArg_float h r
  have hr : ∀ st, range e st (a.text ++ ' ' :: 'd' :: 'e' :: 'c' :: ' ' :: n.text) =
      some ({ st with start := .num (a.value e.units), stop := .text ['d', 'e', 'c'] }, n.text) := by
    intro st
    unfold range
    rw [hA, if_pos rfl, ← gap_ne (t := 'd' :: 'e' :: 'c' :: ' ' :: n.text) (by simp), parse_numeral _ _ _ a ha _ (stops_gap _), skipcom_gap hdf]
    simp only [Option.bind_some]
    have hsc : skipcom (' ' :: n.text) = n.text := by rw [← gap_ne hnn]; exact skipcom_gap hnf
    have := parse_word e.units e.ci .unset 'd' ['e', 'c'] (' ' :: n.text) (Spice.plain_of _ (by decide)) (.inr rfl) (by decide) (by cases e.ci <;> decide) (by
      rw [hsc]
      obtain ⟨c, r, ec, h, hg, -⟩ := numeral_head n hn []
      rw [List.append_nil] at ec
      rw [ec]
      have hc : c ≠ '(' := by
        rintro rfl
        exact absurd h (by decide)
      simp [match1, hc])
    rw [hsc] at this
    simp only [List.cons_append, List.nil_append] at this
    rw [this]
    rfl
  have hopt : ∀ st, options true dcTable e st n.text = .done { st with stepIn := .num (n.value e.units), mode := .linStep } [] := by
    intro st
    have := options_items dc_fits true e [] ⟨.inl rfl, by simp⟩ ((Tail.nil ho).left dc_fits dc_written dc_ne true) [.bare n] st (by
      intro i hi
      simp only [List.mem_singleton] at hi
      subst hi
      exact ⟨rfl, hn⟩)
    simpa [lineText, Item.text, gap, Item.does] using this
  refine ⟨?w, ?a, ?b⟩
  case a =>
    unfold dc
    simp only
    rw [hsk.1, if_neg hsk.2, levels, hsk.1, if_neg hsk.2, level, target_known k name x hk hw _ haf.next]
    simp only [hr, hopt]
    rw [levels]
    simp only [skipbl, if_true]
    rfl
  case b => simp [Dc.put]

/-- the sweep a line of OP is for: the start if given, else the temperature of the options; the stop if given, else the start
(apps/s_dc.cc:275-276, 363-364) -/
noncomputable def opLevel (e : Env) (env : List Char → ℚ) (st : St) : Option Sweep.Level := do
  let a ← st.start.val env e.optTemp
  let b ← st.stop.val env a
  let s ← st.stepIn.val env 0
  some ⟨a, b, (Sweep.fixArgs st.mode a b s).1, (Sweep.fixArgs st.mode a b s).2, st.flag .loop, st.flag .reverse⟩

/-- **C88, a defect**: what OP sweeps is the temperature, and it begins at the start, so `temperature` on the line is without
effect: a first `op temperature=t` is at the temperature of the options. -/
theorem op_temperature_wrong (e : Env) (ho : e.outset [] = []) (st : St) (hs : st.start = .unset) (hp : st.stop = .unset) (hi : st.stepIn = .unset)
    (hm : st.mode = .onePt) (w : List Char) (q : Bool) (n : Numeral) (hn : n.Wf) (hw : meant dcNames w = some .temp) :
    ∃ st', op e st (w ++ sepText q :: n.text) = .done st' [] ∧ st'.temp = n.value e.units ∧
      ∀ env, ∃ l, opLevel e env st' = some l ∧ ∀ tol fuel, 0 < fuel → Sweep.visits tol l fuel = some [(e.optTemp : ℝ)] := by
  have hplus : w ≠ ['+'] := by
    rintro rfl
    exact absurd hw (by decide +kernel)
  have hg : OpLine.Good e ⟨[], [.num w q n], []⟩ := by
    refine ⟨by simp, ?_, .nil ho, ?_⟩
    · intro i hi
      simp only [List.mem_singleton] at hi
      subst hi
      exact ⟨⟨_, hw, by simp, by simp⟩, hn, fun _ => hplus⟩
    · intro _ i hi
      simp only [List.head?_cons, Option.some.injEq] at hi
      subst hi
      exact hplus
  have := op_line e st _ hg
  rw [show OpLine.text ⟨[], [.num w q n], []⟩ = w ++ sepText q :: n.text by simp [OpLine.text, numsText, lineText, gap, Item.text]] at this
  refine ⟨_, this, ?_, ?_⟩
  · simp [OpLine.does, Item.does, hw]
  · intro env
    refine ⟨⟨e.optTemp, e.optTemp, 0, true, false, false⟩, ?_, ?_⟩
    · simp [opLevel, OpLine.does, Item.does, hw, numsDo, hs, hp, hi, hm, Param.val, Sweep.fixArgs]
    · intro tol fuel hf
      exact Sweep.dc_no_step tol ⟨e.optTemp, e.optTemp, 0, true, false, false⟩ rfl rfl fuel hf

/-! ## Concrete lines -/

/-- a check for `Free` -/
def likeB (ci : Bool) : List Char → List Char → Bool
  | [], [] => true
  | a :: w, b :: s => eqc ci a b && likeB ci w s
  | _, _ => false

theorem likeB_of {ci : Bool} : ∀ {w s : List Char}, Like ci w s → likeB ci w s = true
  | [], [], _ => rfl
  | _ :: _, _ :: _, .cons h t => by simp [likeB, h, likeB_of t]

def freeB (ci : Bool) (ns : Names) (w : List Char) : Bool :=
  Opt.isWord w && ns.all fun e => ((spelled e.1 e.2.1).all fun s => !likeB ci w s) &&
    (match e.2.2 with | .flag _ => w.inits.all fun p => !likeB ci p (['n', 'o'] ++ e.1) | _ => true)

theorem free_of {ci : Bool} {ns : Names} {w : List Char} (h : freeB ci ns w = true) : Free ci ns w := by
  simp only [freeB, Bool.and_eq_true] at h
  refine ⟨Opt.word_of h.1, ?_, ?_⟩
  · intro e he s hs hl
    have h1 := List.all_eq_true.mp h.2 e he
    simp only [Bool.and_eq_true] at h1
    have h2 := List.all_eq_true.mp h1.1 s hs
    rw [likeB_of hl] at h2
    cases h2
  · intro e he f hf p hp hl
    have h1 := List.all_eq_true.mp h.2 e he
    simp only [Bool.and_eq_true, hf] at h1
    have h2 := List.all_eq_true.mp h1.2 p ((List.mem_inits ..).mpr hp)
    rw [likeB_of hl] at h2
    cases h2

def num (ds : List ℕ) : Numeral := ⟨none, ds, false, [], .word []⟩

theorem num_wf (ds : List ℕ) (h : ∀ d ∈ ds, d < 10) (hn : ds ≠ []) : (num ds).Wf :=
  ⟨h, by simp [num], by simp [num], .inl hn, by simp [num, Word]⟩

def demoEnv : Env := ⟨.si, true, 27, id⟩
def demoSt : St := ⟨.unset, .unset, .unset, .onePt, 27, fun _ => false, .none⟩
def demoCkt : Ckt := ⟨fun s => if ['v', '1', ' '].isPrefixOf s then some (true, 1, s.drop 3) else if ['r', '1', ' '].isPrefixOf s then some (true, 2, s.drop 3) else none,
  fun _ => none, fun _ => []⟩

/-- `ac dec 10 1 100 plot` -/
example : ac demoEnv false demoSt "dec 10 1 100 plot".toList =
    .done { demoSt with start := .num 1, stop := .num 100, stepIn := .num 10, mode := .decade, flag := fun g => decide (g = .plot) } [] := by
  have hg : AcLine.Good demoEnv ⟨some (.num ['d', 'e', 'c'] false (num [1, 0])), [num [1], num [1, 0, 0]], [.flag ['p', 'l', 'o', 't'] true], []⟩ := by
    refine ⟨?_, ⟨by decide, ?_⟩, ?_, .nil rfl, ?_, by simp⟩
    · intro i hi; cases hi
      exact ⟨_, _, _, .decade, rfl, num_wf _ (by decide) (by decide), by decide +kernel⟩
    · intro n hn
      simp only [List.mem_cons, List.not_mem_nil, or_false] at hn
      rcases hn with rfl | rfl <;> exact num_wf _ (by decide) (by decide)
    · intro i hi
      simp only [List.mem_singleton] at hi
      subst hi
      exact ⟨.plot, by decide +kernel⟩
    · intro _ i hi; cases hi; trivial
  have h := ac_line demoEnv false demoSt _ hg
  rw [show AcLine.text _ = "dec 10 1 100 plot".toList by decide +kernel] at h
  have h1 : meant acNames ['d', 'e', 'c'] = some (.step .decade) := by decide +kernel
  have h2 : meant acNames ['p', 'l', 'o', 't'] = some (.flag .plot) := by decide +kernel
  have v1 : (num [1, 0]).value .si = 10 := by decide +kernel
  have v2 : (num [1]).value .si = 1 := by decide +kernel
  have v3 : (num [1, 0, 0]).value .si = 100 := by decide +kernel
  simpa [AcLine.does, Item.does, h1, h2, numsDo, demoEnv, demoSt, v1, v2, v3] using h

/-- `ac 1 10 + 2` -/
example : ∃ st', ac demoEnv false demoSt "1 10 + 2".toList = .done st' ['2'] ∧ st'.stepIn = .num 0 ∧ st'.mode = .linStep :=
  ac_plus_wrong demoEnv false demoSt (num [1]) (num [1, 0]) (num [2]) (num_wf _ (by decide) (by decide)) (num_wf _ (by decide) (by decide))
    (num_wf _ (by decide) (by decide)) (free_of (by decide +kernel)) rfl

/-- `dc v1 0 5 1 r1 1 9 by 2`, and the names `r1` and `v1` are free for all lines -/
def demoLevels : List Lv := [
  ⟨['v', '1'], .element 1, num [0], num [5], [.bare (num [1])]⟩,
  ⟨['r', '1'], .element 2, num [1], num [9], [.num ['b', 'y'] false (num [2])]⟩]

example : dcText demoLevels = "v1 0 5 1 r1 1 9 by 2".toList := by decide +kernel

theorem demo_good : (∀ x ∈ demoLevels, x.Good demoCkt) ∧ ∀ x ∈ demoLevels, x.Later demoEnv := by
  constructor
  · intro x hx
    simp only [demoLevels, List.mem_cons, List.not_mem_nil, or_false] at hx
    rcases hx with rfl | rfl
    · refine ⟨Opt.word_of (by decide +kernel), fun t _ => rfl, num_wf _ (by decide) (by decide), num_wf _ (by decide) (by decide), ?_⟩
      intro i hi
      simp only [List.mem_singleton] at hi
      subst hi
      exact ⟨rfl, num_wf _ (by decide) (by decide)⟩
    · refine ⟨Opt.word_of (by decide +kernel), fun t _ => rfl, num_wf _ (by decide) (by decide), num_wf _ (by decide) (by decide), ?_⟩
      intro i hi
      simp only [List.mem_singleton] at hi
      subst hi
      exact ⟨⟨.step .linStep, by decide +kernel, by simp, by simp⟩, num_wf _ (by decide) (by decide), fun _ => by decide⟩
  · intro x hx
    simp only [demoLevels, List.mem_cons, List.not_mem_nil, or_false] at hx
    rcases hx with rfl | rfl <;> exact ⟨free_of (by decide +kernel), by decide +kernel, fun t => rfl⟩

example (d : Dc) : ∃ d', dc demoEnv demoCkt d (dcText demoLevels) = .done d' [] ∧ d'.n = 2 ∧
    (d'.lev 0).start = .num 0 ∧ (d'.lev 0).stop = .num 5 ∧ (d'.lev 0).stepIn = .num 1 ∧ (d'.lev 0).target.zap = some 1 ∧
    (d'.lev 1).start = .num 1 ∧ (d'.lev 1).stop = .num 9 ∧ (d'.lev 1).stepIn = .num 2 ∧ (d'.lev 1).mode = .linStep ∧ (d'.lev 1).target.zap = some 2 := by
  have h := dc_line demoEnv demoCkt rfl d demoLevels (by simp [demoLevels]) demo_good.1 (fun x hx => demo_good.2 x (List.mem_of_mem_tail hx)) (by decide)
  have hb : meant dcNames ['b', 'y'] = some (.step .linStep) := by decide +kernel
  have v0 : (num [0]).value .si = 0 := by decide +kernel
  have v1 : (num [1]).value .si = 1 := by decide +kernel
  have v2 : (num [2]).value .si = 2 := by decide +kernel
  have v5 : (num [5]).value .si = 5 := by decide +kernel
  have v9 : (num [9]).value .si = 9 := by decide +kernel
  refine ⟨_, h, rfl, ?_⟩
  simp [levelsDo, demoLevels, Lv.does, Lv.after, Lv.before, aims, Item.does, hb, v0, v1, v2, v5, v9, demoEnv]

/-- a word nobody knows behind the first level: four sweeps -/
example (d : Dc) (x : Lv) (hx : x ∈ demoLevels) : ∃ d', dc demoEnv demoCkt d (x.text ['t', 'y', 'p', 'o']) = .done d' ['t', 'y', 'p', 'o'] ∧ d'.n = 4 ∧
    ∀ j, 1 ≤ j → j < 4 → d'.lev j = stale (d.lev j) := by
  have ht : Tail demoEnv dcNames ['t', 'y', 'p', 'o'] := by
    have := Tail.word (e := demoEnv) (ns := dcNames) ['t', 'y', 'p', 'o'] [] (free_of (by decide +kernel)) rfl rfl rfl
    simpa using this
  exact dc_unknown_wrong demoEnv demoCkt d x _ (demo_good.1 x hx) (by simp) ht rfl

/-- a flag as a name; one number and `dec` -/
example : meant dcNames ['r', 'e'] = some (.flag .reverse) ∧ meant dcNames ['t', 'e'] = some .temp ∧ meant stepNames ['d', 'e', 'c'] = some (.step .decade) := by
  decide +kernel
example (d : Dc) : ∃ d', dc demoEnv demoCkt d "v1 5 dec 10".toList = .done d' [] ∧ (d'.lev 0).stop = .text ['d', 'e', 'c'] ∧
    (d'.lev 0).stepIn = .num ((num [1, 0]).value .si) ∧ (d'.lev 0).mode = .linStep :=
  dc_stop_wrong demoEnv demoCkt rfl d ['v', '1'] (.element 1) (fun t _ => rfl) (Opt.word_of (by decide +kernel)) (num [5]) (num [1, 0])
    (num_wf _ (by decide) (by decide)) (num_wf _ (by decide) (by decide))

/-- a resistor `re` behind a source: one sweep, reversed, with the step that was meant as the end -/
def reCkt : Ckt := ⟨fun s => if ['v', '1', ' '].isPrefixOf s then some (true, 1, s.drop 3) else if ['r', 'e', ' '].isPrefixOf s then some (true, 2, s.drop 3) else none,
  fun _ => none, fun _ => []⟩

example (d : Dc) : ∃ d', dc demoEnv reCkt d "v1 0 5 re 1 9".toList = .done d' [] ∧ d'.n = 1 ∧ (d'.lev 0).reverse = true ∧ (d'.lev 0).stepIn = .num 9 := by
  have h := dc_captured_wrong demoEnv reCkt rfl d ⟨['v', '1'], .element 1, num [0], num [5], []⟩ ⟨['r', 'e'], .element 2, num [1], num [9], []⟩ .reverse
    ⟨Opt.word_of (by decide +kernel), fun t _ => rfl, num_wf _ (by decide) (by decide), num_wf _ (by decide) (by decide), by simp⟩
    ⟨Opt.word_of (by decide +kernel), fun t _ => rfl, num_wf _ (by decide) (by decide), num_wf _ (by decide) (by decide), by simp⟩ (by decide +kernel)
  rw [show dcText _ = "v1 0 5 re 1 9".toList by decide +kernel] at h
  have hb : meant dcNames ['r', 'e'] = some (.flag .reverse) := by decide +kernel
  have v9 : (num [9]).value .si = 9 := by decide +kernel
  refine ⟨_, h, rfl, ?_⟩
  simp [Lv.does, Lv.after, Lv.before, Item.does, hb, v9, demoEnv]

/-- `op temperature=50` at 27 degrees -/
example : ∃ st', op demoEnv demoSt "te=50".toList = .done st' [] ∧ st'.temp = (num [5, 0]).value .si ∧
    ∀ env, ∃ l, opLevel demoEnv env st' = some l ∧ ∀ tol fuel, 0 < fuel → Sweep.visits tol l fuel = some [((27 : ℚ) : ℝ)] :=
  op_temperature_wrong demoEnv rfl demoSt rfl rfl rfl rfl ['t', 'e'] true (num [5, 0]) (num_wf _ (by decide) (by decide)) (by decide +kernel)

/-- `ac 1 100 decade=2`, and `ac decade=2 1 100` -/
example (before : Bool) := ac_decade_text demoEnv rfl true demoSt ['d', 'e', 'c', 'a', 'd', 'e'] true (by decide +kernel) (num [1]) (num [1, 0, 0]) (num [2])
  (num_wf _ (by decide) (by decide)) (num_wf _ (by decide) (by decide)) (num_wf _ (by decide) (by decide)) 2 (by decide) (by decide +kernel)
  (by decide +kernel) (by decide +kernel) before

/-- a word the options of AC do not know -/
example (st : St) : tryAll demoEnv st ['f', 'o', 'o', ' ', '1'] acTable = some (st, ['f', 'o', 'o', ' ', '1']) :=
  free_left ac_fits ac_written demoEnv st ['f', 'o', 'o'] [' ', '1'] (free_of (by decide +kernel)) rfl

/-- `op 0 50 10 re trace=verbose` -/
example : ∃ st', op demoEnv demoSt "0 50 10 re trace=verbose".toList = .done st' [] ∧ st'.start = .num 0 ∧ st'.stop = .num 50 ∧ st'.stepIn = .num 10 ∧
    st'.mode = .linStep ∧ st'.flag .reverse = true ∧ st'.trace = .verbose := by
  have hg : OpLine.Good demoEnv ⟨[num [0], num [5, 0]], [.bare (num [1, 0]), .flag ['r', 'e'] true, .trace ['t', 'r', 'a', 'c', 'e'] true ['v', 'e', 'r', 'b', 'o', 's', 'e']], []⟩ := by
    refine ⟨⟨by decide, ?_⟩, ?_, .nil rfl, by simp⟩
    · intro n hn
      simp only [List.mem_cons, List.not_mem_nil, or_false] at hn
      rcases hn with rfl | rfl <;> exact num_wf _ (by decide) (by decide)
    · intro i hi
      simp only [List.mem_cons, List.not_mem_nil, or_false] at hi
      rcases hi with rfl | rfl | rfl
      · exact ⟨rfl, num_wf _ (by decide) (by decide)⟩
      · exact ⟨.reverse, by decide +kernel⟩
      · exact ⟨by decide +kernel, by decide +kernel⟩
  have h := op_line demoEnv demoSt _ hg
  rw [show OpLine.text _ = "0 50 10 re trace=verbose".toList by decide +kernel] at h
  have hb : meant dcNames ['r', 'e'] = some (.flag .reverse) := by decide +kernel
  have hv : traceMeant ['v', 'e', 'r', 'b', 'o', 's', 'e'] = some .verbose := by decide +kernel
  have v0 : (num [0]).value .si = 0 := by decide +kernel
  have v50 : (num [5, 0]).value .si = 50 := by decide +kernel
  have v10 : (num [1, 0]).value .si = 10 := by decide +kernel
  refine ⟨_, h, ?_⟩
  simp [OpLine.does, Item.does, numsDo, hb, hv, v0, v50, v10, demoEnv]

end Gnucap.AnaCmd
