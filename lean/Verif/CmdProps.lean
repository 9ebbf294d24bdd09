import Verif.CmdModel
import Verif.OptNames
import Verif.DispatchProps
import Verif.ExprLemmas
import Verif.ParamProps

/-!
# Which command a line runs (C82)

What a short name is is said here without patterns: the first letters of a full name, at least so many.
-/
namespace Gnucap.Cmd
open Gnucap.Scan Gnucap.Spice Gnucap.Dispatch Gnucap.Opt
open Gnucap.Expr (plain toLower_plain toLower_eq_plain)

/-! ## what a user reads: short names -/

/-- `w` is `full` cut behind `must` or more of its letters (cases as set) -/
def Short (ci : Bool) (must : ℕ) (full w : List Char) : Prop :=
  must ≤ w.length ∧ w.length ≤ full.length ∧ ∀ p ∈ w.zip full, eqc ci p.1 p.2 = true

instance (ci : Bool) (must : ℕ) (full w : List Char) : Decidable (Short ci must full w) := by unfold Short; infer_instance

structure Abbrev where
  must : ℕ
  full : List Char
  name : List Char
deriving DecidableEq

/-- how much must be written of which commands, and the name that is looked up -/
def abbrevs : List Abbrev := [
  ⟨1, ['b', 'u', 'i', 'l', 'd'], ['b', 'u', 'i', 'l', 'd']⟩,
  ⟨3, ['d', 'e', 'l', 'e', 't', 'e'], ['d', 'e', 'l', 'e', 't', 'e']⟩,
  ⟨2, ['f', 'o', 'u', 'r', 'i', 'e', 'r'], ['f', 'o', 'u', 'r', 'i', 'e', 'r']⟩,
  ⟨3, ['g', 'e', 'n', 'e', 'r', 'a', 't', 'o', 'r'], ['g', 'e', 'n', 'e', 'r', 'a', 't', 'o', 'r']⟩,
  ⟨3, ['i', 'n', 'c', 'l', 'u', 'd', 'e'], ['i', 'n', 'c', 'l', 'u', 'd', 'e']⟩,
  ⟨1, ['l', 'i', 's', 't'], ['l', 'i', 's', 't']⟩,
  ⟨1, ['m', 'o', 'd', 'i', 'f', 'y'], ['m', 'o', 'd', 'i', 'f', 'y']⟩,
  ⟨3, ['o', 'p', 't', 'i', 'o', 'n', 's'], ['o', 'p', 't', 'i', 'o', 'n', 's']⟩,
  ⟨3, ['p', 'a', 'r', 'a', 'm', 'e', 't', 'e', 'r'], ['p', 'a', 'r', 'a', 'm']⟩,
  ⟨2, ['p', 'r', 'i', 'n', 't'], ['p', 'r', 'i', 'n', 't']⟩,
  ⟨1, ['q', 'u', 'i', 't'], ['q', 'u', 'i', 't']⟩,
  ⟨2, ['s', 't', 'a', 't', 'u', 's'], ['s', 't', 'a', 't', 'u', 's']⟩,
  ⟨2, ['t', 'e', 'm', 'p', 'e', 'r', 'a', 't', 'u', 'r', 'e'], ['t', 'e', 'm', 'p', 'e', 'r', 'a', 't', 'u', 'r', 'e']⟩,
  ⟨2, ['t', 'r', 'a', 'n', 's', 'i', 'e', 'n', 't'], ['t', 'r', 'a', 'n', 's', 'i', 'e', 'n', 't']⟩]

/-- the command looked up under a name and run, or "what's this?" -/
def answer (ci : Bool) (m : Map ℕ) (n rest : List Char) : What :=
  match (if find m n = none ∧ ci = true then find m (Gnucap.Sim.toLower n) else find m n) with
  | some k => .runs k rest
  | none => .whats

/-- no mark, no comment, not the prompt: the first word of a command -/
structure Lead (ci : Bool) (w : List Char) : Prop where
  plain : Plain w
  mark : ∀ c ∈ ['*', '#', '!', '<', '>'], w.head? ≠ some c
  slash : ¬ ['/', '/'] <+: w
  prompt : ¬ Short ci 7 ['g', 'n', 'u', 'c', 'a', 'p', '>'] w

/-! ## patterns of short names -/

def Abbrev.pattern (e : Abbrev) : List Char := e.full.take e.must ++ '{' :: e.full.drop e.must ++ ['}', ' ']

theorem shorts_eq : shorts = abbrevs.map (fun e => (e.pattern, e.name)) ++
    [(['!'], ['s', 'y', 's', 't', 'e', 'm']), (['<'], ['<']), (['>'], ['>'])] := by decide +kernel

def Abbrev.segs (e : Abbrev) : List Seg := (e.full.take e.must).map .lit ++ [.opt (e.full.drop e.must), .delim]

theorem abbrev_sound : ∀ e ∈ abbrevs, sound e.pattern = true ∧ segsOf none e.pattern = e.segs ∧ e.must ≤ e.full.length := by
  decide +kernel

theorem optDrop_end (ci : Bool) : ∀ (o w : List Char), optDrop ci o w = [] ↔ Short ci 0 o w
  | [], [] => by simp [optDrop, Short]
  | [], d :: w => by simp [optDrop, Short]
  | c :: o, [] => by simp [optDrop, Short]
  | c :: o, d :: w => by
    simp only [optDrop, Short, List.zip_cons_cons, List.forall_mem_cons, List.length_cons]
    by_cases h : eqc ci d c = true
    · rw [if_pos h, optDrop_end ci o w]
      simp [Short, h]
    · simp [h]

theorem segs_fails (ci : Bool) (o : List Char) : ∀ (a w : List Char),
    fails ci (a.map .lit ++ [.opt o, .delim]) w = false ↔ Short ci a.length (a ++ o) w
  | [], w => by
    simp only [List.map_nil, List.nil_append, fails, List.length_nil]
    rw [← optDrop_end]
    cases optDrop ci o w <;> simp [fails]
  | c :: a, [] => by simp [fails, Short]
  | c :: a, d :: w => by
    simp only [List.map_cons, List.cons_append, fails]
    by_cases h : eqc ci d c = true
    · rw [if_pos h, segs_fails ci o a w]
      simp [Short, h]
    · simp [h, Short]

theorem segs_reach (ci : Bool) (o : List Char) : ∀ (a w : List Char), Short ci a.length (a ++ o) w →
    reach ci (a.map .lit ++ [.opt o, .delim]) w = some [.delim]
  | [], w, h => by
    have := (optDrop_end ci o w).mpr h
    simp [reach, this]
  | c :: a, [], h => by simp [Short] at h
  | c :: a, d :: w, h => by
    simp only [Short, List.cons_append, List.zip_cons_cons, List.forall_mem_cons, List.length_cons] at h
    simp only [List.map_cons, List.cons_append, reach]
    rw [if_pos h.2.2.1]
    exact segs_reach ci o a w ⟨by omega, by simpa using h.2.1, h.2.2.2⟩

theorem skipcom_skipbl (s : List Char) : skipcom (skipbl s) = skipcom s := by
  unfold skipcom; rw [skipbl_idem]

theorem lits_fails (ci : Bool) : ∀ (a w : List Char), fails ci (a.map .lit ++ [.delim]) w = false ↔ Short ci a.length a w
  | [], [] => by simp [fails, Short]
  | [], d :: w => by simp [fails, Short]
  | c :: a, [] => by simp [fails, Short]
  | c :: a, d :: w => by
    simp only [List.map_cons, List.cons_append, fails]
    by_cases h : eqc ci d c = true
    · rw [if_pos h, lits_fails ci a w]
      simp [Short, h]
    · simp [h, Short]

theorem Plain.word {w : List Char} (h : Plain w) : Word w := ⟨h.ne, fun c hc => ⟨h.graph c hc, h.noTerm c hc⟩⟩

/-- `skipbl` is all `umatch` looks at for one alternative -/
theorem umatch_short (ci : Bool) (e : Abbrev) (he : e ∈ abbrevs) (s w rest : List Char) (hs : skipbl s = w ++ rest)
    (hw : Plain w) (hr : isTerm rest = true) :
    umatch ci e.pattern s = if Short ci e.must e.full w then .ok (skipcom rest) else .fail := by
  obtain ⟨h1, h2, h3⟩ := abbrev_sound e he
  have hl : (e.full.take e.must).length = e.must := by simp [h3]
  have hn : ∀ c ∈ w, isTermChar c = false := hw.noTerm
  rw [umatch_sound ci _ _ h1, hs]
  have hc := sound_clean h1
  rw [h2] at hc ⊢
  have hf := segs_fails ci (e.full.drop e.must) (e.full.take e.must) w
  rw [hl, List.take_append_drop] at hf
  by_cases h : Short ci e.must e.full w
  · rw [if_pos h]
    have hr' := segs_reach ci (e.full.drop e.must) (e.full.take e.must) w (by rw [hl, List.take_append_drop]; exact h)
    rw [reach_spec ci rest hr _ w _ hc hr']
    simp only [segMatch, hr, if_true, skipcom_skipbl]
  · rw [if_neg h]
    rw [fails_spec ci rest hr _ w hc hn]
    by_contra hx
    exact h (hf.mp (by simpa [Abbrev.segs] using hx))

/-! ## marks -/

theorem eqc_mark (ci : Bool) (d c : Char) (hc : plain c = true) (h : eqc ci d c = true) : d = c := by
  unfold eqc at h
  simp only [Bool.or_eq_true, beq_iff_eq, Bool.and_eq_true] at h
  rcases h with h | ⟨_, h⟩
  · exact h
  · rw [toLower_plain c hc] at h
    exact toLower_eq_plain d c hc h

theorem mark_fails (ci : Bool) (c : Char) (hc : plain c = true) (s : List Char) (r : List Seg) (hs : s.head? ≠ some c) :
    segMatch ci (.lit c :: r) s = none := by
  cases s with
  | nil => rfl
  | cons d t =>
    simp only [segMatch]
    rw [if_neg]
    intro h
    exact hs (by rw [eqc_mark ci d c hc h]; rfl)

theorem mark_matches (ci : Bool) (c : Char) (t : List Char) (r : List Seg) : segMatch ci (.lit c :: r) (c :: t) = segMatch ci r t := by
  simp [segMatch, eqc]

/-- one character and nothing else -/
theorem umatch_mark (ci : Bool) (c : Char) (hc : plain c = true) (s : List Char) :
    umatch ci [c] s = match skipbl s with
      | d :: t => if d = c then .ok (skipcom t) else .fail
      | [] => .fail := by
  have hsp : special c = false := by simp only [plain, Bool.and_eq_true, Bool.not_eq_true'] at hc; exact hc.1
  have := umatch_single ci [.lit c] (by intro x hx; simp at hx; subst hx; simp [Seg.wf, hsp]) s
  rw [show segText [.lit c] = [c] from rfl] at this
  rw [this]
  cases hs : skipbl s with
  | nil => rfl
  | cons d t =>
    simp only
    by_cases h : d = c
    · subst h; rw [if_pos rfl, mark_matches]; rfl
    · rw [if_neg h, mark_fails ci c hc _ _ (by simpa using h)]

/-- the other comments -/
def otherComments : List (List Seg) := [[.lit '*'], [.lit '#'], [.lit '/', .lit '/'], [.lit '"']]

/-- **leading blanks are skipped for the first mark only** -/
theorem comments_eq (ci : Bool) (s : List Char) : umatch ci comments s =
    match segMatch ci [.lit '\''] (skipbl s) with
    | some r => .ok (skipcom r)
    | none => match firstMatch ci otherComments s with
      | some r => .ok (skipcom r)
      | none => .fail := by
  have e : comments = segText [.lit '\''] ++ tailText (some (altText otherComments)) := by decide
  unfold umatch
  rw [e, go_segs ci _ _ _ _ (by decide)]
  cases segMatch ci [.lit '\''] (skipbl s) with
  | some r => rfl
  | none =>
    simp only [onFail]
    rw [go_alts ci otherComments (by decide) (by decide)]
    cases firstMatch ci otherComments s <;> rfl

theorem others_none (ci : Bool) (s : List Char) (h : ∀ c ∈ ['*', '#', '"'], s.head? ≠ some c) (h2 : ¬ ['/', '/'] <+: s) :
    firstMatch ci otherComments s = none := by
  unfold firstMatch otherComments
  simp only [List.findSome?_cons, List.findSome?_nil]
  rw [mark_fails ci '*' (by decide) s _ (h _ (by simp)), mark_fails ci '#' (by decide) s _ (h _ (by simp)),
    mark_fails ci '"' (by decide) s _ (h _ (by simp))]
  have : segMatch ci [.lit '/', .lit '/'] s = none := by
    cases s with
    | nil => rfl
    | cons c t =>
      by_cases hc : c = '/'
      · subst hc
        rw [mark_matches]
        refine mark_fails ci '/' (by decide) t _ ?_
        intro ht
        cases t with
        | nil => simp at ht
        | cons d t =>
          have : d = '/' := by simpa using ht
          subst this
          exact h2 ⟨t, rfl⟩
      · exact mark_fails ci '/' (by decide) _ _ (by simpa using hc)
  rw [this]

theorem blank_head {s : List Char} {c : Char} {t : List Char} (h : skipbl s = c :: t) : s = c :: t ∨ ∃ d u, s = d :: u ∧ isGraph d = false := by
  cases s with
  | nil => simp [skipbl] at h
  | cons d u =>
    by_cases hd : isGraph d = true
    · left; rw [skipbl_cons u hd] at h; exact h
    · right; exact ⟨d, u, rfl, by simpa using hd⟩

theorem comments_miss (ci : Bool) (s w rest : List Char) (hs : skipbl s = w ++ rest) (hw : Lead ci w) (hr : isTerm rest = true) :
    umatch ci comments s = .fail := by
  obtain ⟨c, w', rfl⟩ := List.exists_cons_of_ne_nil hw.plain.ne
  have hm : ∀ d ∈ ['*', '#', '!', '<', '>'], c ≠ d := fun d hd h => hw.mark d hd (by rw [h]; rfl)
  have hq1 : c ≠ '"' := fun h => hw.plain.noQuote.1 (by rw [h]; rfl)
  have hq2 : c ≠ '\'' := fun h => hw.plain.noQuote.2 (by rw [h]; rfl)
  rw [comments_eq, hs, mark_fails ci '\'' (by decide) _ _ (by simpa using hq2)]
  simp only
  rw [others_none]
  · rw [List.cons_append] at hs
    rcases blank_head hs with rfl | ⟨d, u, rfl, hd⟩
    · intro x hx
      simp only [List.mem_cons, List.not_mem_nil, or_false] at hx
      simp only [List.head?_cons, ne_eq, Option.some.injEq]
      rcases hx with rfl | rfl | rfl
      · exact hm _ (by simp)
      · exact hm _ (by simp)
      · exact hq1
    · intro x hx
      simp only [List.head?_cons, ne_eq, Option.some.injEq]
      rintro rfl
      simp only [List.mem_cons, List.not_mem_nil, or_false] at hx
      rcases hx with rfl | rfl | rfl <;> exact absurd hd (by decide)
  · rw [List.cons_append] at hs
    rcases blank_head hs with rfl | ⟨d, u, rfl, hd⟩
    · rintro ⟨t, ht⟩
      cases w' with
      | nil =>
        simp only [List.cons_append, List.nil_append, List.cons.injEq] at ht
        obtain ⟨d, r, rfl⟩ : ∃ d r, rest = d :: r := by
          cases rest with
          | nil => simp at ht
          | cons d r => exact ⟨d, r, rfl⟩
        have : d = '/' := ((List.cons.inj ht.2).1).symm
        rw [this] at hr
        cases hr
      | cons d w' =>
        simp only [List.cons_append, List.nil_append, List.cons.injEq] at ht
        exact hw.slash ⟨w', by rw [← ht.1, ← ht.2.1]; rfl⟩
    · rintro ⟨t, ht⟩
      simp only [List.cons_append, List.cons.injEq] at ht
      rw [← ht.1] at hd
      exact absurd hd (by decide)

/-! ## the chain -/

theorem word_blank (s : List Char) : word s = word (skipbl s) := by simp only [word, ctos, skipbl_idem]

/-- no short name -/
theorem choose_miss (ci : Bool) (s w rest : List Char) (hs : skipbl s = w ++ rest) (hw : Plain w) (hr : isTerm rest = true)
    (tail : List (List Char × List Char)) : ∀ l : List Abbrev, (∀ e ∈ l, e ∈ abbrevs) → (∀ e ∈ l, ¬ Short ci e.must e.full w) →
    choose ci s (l.map (fun e => (e.pattern, e.name)) ++ tail) = choose ci s tail
  | [], _, _ => rfl
  | e :: l, h, hn => by
    simp only [List.map_cons, List.cons_append, choose]
    rw [umatch_short ci e (h e (by simp)) s w rest hs hw hr, if_neg (hn e (by simp))]
    exact choose_miss ci s w rest hs hw hr tail l (fun x hx => h x (by simp [hx])) (fun x hx => hn x (by simp [hx]))

/-- the must be written parts of two short names differ somewhere -/
def clash (a b : List Char) : Bool := (a.zip b).any fun p => p.1.toLower != p.2.toLower

theorem abbrevs_clash : ∀ e ∈ abbrevs, ∀ e' ∈ abbrevs, e = e' ∨ clash (e.full.take e.must) (e'.full.take e'.must) = true := by decide +kernel

theorem eqc_lower {ci : Bool} {a b : Char} (h : eqc ci a b = true) : a.toLower = b.toLower := by
  unfold eqc at h
  simp only [Bool.or_eq_true, beq_iff_eq, Bool.and_eq_true] at h
  rcases h with rfl | ⟨_, h⟩
  · rfl
  · exact h

theorem no_clash (ci : Bool) : ∀ (w a b : List Char) (m n : ℕ), m ≤ w.length → n ≤ w.length → (∀ p ∈ w.zip a, eqc ci p.1 p.2 = true) →
    (∀ p ∈ w.zip b, eqc ci p.1 p.2 = true) → clash (a.take m) (b.take n) = false
  | w, [], b, m, n, _, _, _, _ => by simp [clash]
  | w, a :: as, [], m, n, _, _, _, _ => by simp [clash]
  | w, a :: as, b :: bs, 0, n, _, _, _, _ => by simp [clash]
  | w, a :: as, b :: bs, m + 1, 0, _, _, _, _ => by simp [clash]
  | [], a :: as, b :: bs, m + 1, n + 1, h, _, _, _ => by simp at h
  | d :: w, a :: as, b :: bs, m + 1, n + 1, h1, h2, h3, h4 => by
    simp only [List.zip_cons_cons, List.forall_mem_cons] at h3 h4
    have ih := no_clash ci w as bs m n (by simpa using h1) (by simpa using h2) h3.2 h4.2
    unfold clash at ih ⊢
    simp only [List.take_succ_cons, List.zip_cons_cons, List.any_cons, ih, Bool.or_false]
    rw [← eqc_lower h3.1, ← eqc_lower h4.1]
    simp

/-- **no word is short for two commands** -/
theorem short_unique (ci : Bool) (w : List Char) (e e' : Abbrev) (he : e ∈ abbrevs) (he' : e' ∈ abbrevs) (h : Short ci e.must e.full w)
    (h' : Short ci e'.must e'.full w) : e = e' := by
  rcases abbrevs_clash e he e' he' with h1 | h1
  · exact h1
  · rw [no_clash ci w e.full e'.full e.must e'.must h.1 h'.1 h.2.2 h'.2.2] at h1
    cases h1

theorem choose_hit (ci : Bool) (s w rest : List Char) (hs : skipbl s = w ++ rest) (hw : Plain w) (hr : isTerm rest = true)
    (tail : List (List Char × List Char)) (e : Abbrev) (he : Short ci e.must e.full w) : ∀ l : List Abbrev, (∀ e ∈ l, e ∈ abbrevs) → e ∈ l →
    choose ci s (l.map (fun e => (e.pattern, e.name)) ++ tail) = some (e.name, skipcom rest)
  | [], _, hm => by simp at hm
  | x :: l, h, hm => by
    simp only [List.map_cons, List.cons_append, choose]
    rw [umatch_short ci x (h x (by simp)) s w rest hs hw hr]
    by_cases hx : Short ci x.must x.full w
    · rw [if_pos hx, short_unique ci w e x (h e hm) (h x (by simp)) he hx]
    · rw [if_neg hx]
      rcases List.mem_cons.mp hm with rfl | hm
      · exact absurd he hx
      · exact choose_hit ci s w rest hs hw hr tail e he l (fun x hx => h x (by simp [hx])) hm

theorem answer_lookup (ci : Bool) (m : Map ℕ) (n rest : List Char) :
    (match (lookup ci n m).2 with | some k => What.runs k rest | none => What.whats) = answer ci m n rest := by
  rw [lookup_answer]; rfl

/-- what is left when marks and prompts are gone decides -/
theorem proc_short (ci : Bool) (m : Map ℕ) (line w rest : List Char) (hs : skipbl (strip ci line) = w ++ rest) (hw : Lead ci w)
    (hr : isTerm rest = true) (e : Abbrev) (he : e ∈ abbrevs) (h : Short ci e.must e.full w) :
    proc ci m line = answer ci m e.name (skipcom rest) := by
  unfold proc
  simp only
  rw [comments_miss ci _ w rest hs hw hr, shorts_eq, choose_hit ci _ w rest hs hw.plain hr _ e h abbrevs (fun _ h => h) he]
  have hn : ∀ e ∈ abbrevs, e.name ≠ [] := by decide
  obtain ⟨c, n, hcn⟩ := List.exists_cons_of_ne_nil (hn e he)
  rw [hcn]
  exact answer_lookup ci m (c :: n) _

theorem proc_long (ci : Bool) (m : Map ℕ) (line w rest : List Char) (hs : skipbl (strip ci line) = w ++ rest) (hw : Lead ci w)
    (hr : isTerm rest = true) (h : ∀ e ∈ abbrevs, ¬ Short ci e.must e.full w) :
    proc ci m line = answer ci m w (skipcom rest) := by
  unfold proc
  simp only
  rw [comments_miss ci _ w rest hs hw hr, shorts_eq, choose_miss ci _ w rest hs hw.plain hr _ abbrevs (fun _ h => h) h]
  obtain ⟨c, w', rfl⟩ := List.exists_cons_of_ne_nil hw.plain.ne
  have hm : ∀ d ∈ ['*', '#', '!', '<', '>'], c ≠ d := fun d hd h => hw.mark d hd (by rw [h]; rfl)
  simp only [choose]
  rw [umatch_mark ci '!' (by decide), umatch_mark ci '<' (by decide), umatch_mark ci '>' (by decide), hs, word_blank, hs,
    word_plain _ _ hw.plain hr]
  simp only [List.cons_append]
  rw [if_neg (hm _ (by simp)), if_neg (hm _ (by simp)), if_neg (hm _ (by simp))]
  exact answer_lookup ci m (c :: w') _

/-! ## marks and prompts in front -/

/-- text in front of a command: perhaps `*>`, then prompts, with blanks behind each -/
structure Front where
  blanks : List Char
  anti : Option (List Char)
  prompts : List (List Char)

def Front.ok (f : Front) : Prop := (∀ c ∈ f.blanks, isSpace c = true) ∧ (∀ b, f.anti = some b → ∀ c ∈ b, isSpace c = true) ∧
  ∀ b ∈ f.prompts, ∀ c ∈ b, isSpace c = true

def promptText (l : List (List Char)) (t : List Char) : List Char := l.foldr (fun b t => prompt ++ (b ++ t)) t

def Front.text (f : Front) (t : List Char) : List Char :=
  f.blanks ++ (match f.anti with | none => promptText f.prompts t | some b => '*' :: '>' :: (b ++ promptText f.prompts t))

theorem prompt_segs : sound prompt = true ∧ segsOf none prompt = ['g', 'n', 'u', 'c', 'a', 'p', '>'].map .lit ++ [.delim] := by decide +kernel

theorem prompt_hit (ci : Bool) (s t : List Char) (hs : skipbl s = prompt ++ t) : umatch ci prompt s = .ok (skipcom t) := by
  rw [umatch_sound ci _ _ prompt_segs.1, prompt_segs.2, hs]
  simp only [prompt, List.map_cons, List.map_nil, List.cons_append, List.nil_append, mark_matches]
  have : isTerm (' ' :: t) = true := rfl
  simp only [segMatch, this, if_true]
  have : skipbl (' ' :: t) = skipbl t := by
    have := skipbl_blanks [' '] t (by decide)
    exact this
  rw [this, skipcom_skipbl]

theorem prompt_miss (ci : Bool) (s w rest : List Char) (hs : skipbl s = w ++ rest) (hw : Lead ci w) (hr : isTerm rest = true) :
    umatch ci prompt s = .fail := by
  rw [umatch_sound ci _ _ prompt_segs.1, prompt_segs.2, hs, fails_spec ci rest hr _ w (by decide) hw.plain.noTerm]
  by_contra hx
  exact hw.prompt ((lits_fails ci ['g', 'n', 'u', 'c', 'a', 'p', '>'] w).mp (by simpa using hx))

theorem head_skipcom {c : Char} {s t : List Char} (hs : skipbl s = c :: t) (hc : c ≠ ',') : skipcom s = c :: t := by
  unfold skipcom
  rw [hs]
  simp [hc]

theorem promptText_head (l : List (List Char)) (hl : ∀ b ∈ l, ∀ c ∈ b, isSpace c = true) (w rest : List Char) (hw : Plain w) (b : List Char)
    (hb : ∀ c ∈ b, isSpace c = true) : skipbl (b ++ promptText l (w ++ rest)) = promptText l (w ++ rest) ∧
      skipcom (b ++ promptText l (w ++ rest)) = promptText l (w ++ rest) := by
  have : ∃ c t, promptText l (w ++ rest) = c :: t ∧ isGraph c = true ∧ c ≠ ',' := by
    cases l with
    | nil =>
      obtain ⟨c, w', rfl⟩ := List.exists_cons_of_ne_nil hw.ne
      refine ⟨c, w' ++ rest, rfl, hw.graph c (by simp), ?_⟩
      rintro rfl
      exact absurd (hw.noTerm ',' (by simp)) (by decide)
    | cons b l => exact ⟨'g', _, rfl, by decide, by decide⟩
  obtain ⟨c, t, h1, h2, h3⟩ := this
  have h4 : skipbl (b ++ promptText l (w ++ rest)) = promptText l (w ++ rest) := by
    rw [skipbl_blanks b _ hb, h1, skipbl_cons t h2]
  refine ⟨h4, ?_⟩
  rw [h1] at h4 ⊢
  exact head_skipcom h4 h3

theorem prompts_gone (ci : Bool) (w rest : List Char) (hw : Lead ci w) (hr : isTerm rest = true) : ∀ (l : List (List Char)) (n : ℕ) (s : List Char),
    (∀ b ∈ l, ∀ c ∈ b, isSpace c = true) → l.length ≤ n → skipbl s = promptText l (w ++ rest) → skipbl (prompts ci n s) = w ++ rest
  | [], n, s, _, _, hs => by
    cases n with
    | zero => exact hs
    | succ n =>
      unfold prompts
      rw [prompt_miss ci s w rest hs hw hr]
      exact hs
  | b :: l, 0, s, _, h, _ => by simp at h
  | b :: l, n + 1, s, hl, h, hs => by
    unfold prompts
    rw [prompt_hit ci s _ hs]
    simp only
    have hl' : ∀ b ∈ l, ∀ c ∈ b, isSpace c = true := fun x hx => hl x (by simp [hx])
    change skipbl (prompts ci n (skipcom (b ++ promptText l (w ++ rest)))) = _
    obtain ⟨h1, h2⟩ := promptText_head l hl' w rest hw.plain b (hl b (by simp))
    rw [h2]
    refine prompts_gone ci w rest hw hr l n _ hl' (by simpa using h) ?_
    have := promptText_head l hl' w rest hw.plain [] (by simp)
    simpa using this.1

theorem promptText_length (l : List (List Char)) (t : List Char) : l.length ≤ (promptText l t).length := by
  induction l with
  | nil => simp
  | cons b l ih =>
    simp only [promptText, List.foldr_cons, List.length_append, List.length_cons] at ih ⊢
    have : prompt.length = 8 := rfl
    omega

theorem skipbl_length (s : List Char) : (skipbl s).length ≤ s.length := by
  induction s with
  | nil => simp [skipbl]
  | cons c s ih =>
    unfold skipbl
    split
    · exact le_refl _
    · simp; omega

theorem anti_segs : sound antiComment = true ∧ segsOf none antiComment = [.lit '*', .lit '>'] := by decide +kernel

theorem strip_front (ci : Bool) (f : Front) (hf : f.ok) (w rest : List Char) (hw : Lead ci w) (hr : isTerm rest = true) :
    skipbl (strip ci (f.text (w ++ rest))) = w ++ rest := by
  obtain ⟨bl, an, ps⟩ := f
  obtain ⟨h1, h2, h3⟩ := hf
  unfold strip Front.text
  simp only
  rw [umatch_sound ci _ _ anti_segs.1, anti_segs.2]
  cases an with
  | none =>
    simp only
    obtain ⟨h4, _⟩ := promptText_head ps h3 w rest hw.plain bl h1
    have h5 : segMatch ci [.lit '*', .lit '>'] (promptText ps (w ++ rest)) = none := by
      refine mark_fails ci '*' (by decide) _ _ ?_
      cases ps with
      | nil =>
        obtain ⟨c, w', rfl⟩ := List.exists_cons_of_ne_nil hw.plain.ne
        have := hw.mark '*' (by simp)
        simpa [promptText] using this
      | cons b l => simp [promptText, prompt]
    simp only [h4, h5]
    refine prompts_gone ci w rest hw hr ps _ _ h3 ?_ h4
    have := skipbl_length (bl ++ promptText ps (w ++ rest))
    rw [h4] at this
    exact le_trans (promptText_length ps _) this
  | some b =>
    simp only
    obtain ⟨h4, h6⟩ := promptText_head ps h3 w rest hw.plain b (h2 b rfl)
    have h7 : skipbl (bl ++ '*' :: '>' :: (b ++ promptText ps (w ++ rest))) = '*' :: '>' :: (b ++ promptText ps (w ++ rest)) := by
      rw [skipbl_blanks bl _ h1, skipbl_cons _ (by decide)]
    rw [h7, mark_matches, mark_matches]
    simp only [segMatch, h6]
    have h8 : skipbl (promptText ps (w ++ rest)) = promptText ps (w ++ rest) := by
      simpa using (promptText_head ps h3 w rest hw.plain [] (by simp)).1
    exact prompts_gone ci w rest hw hr ps _ _ h3 (promptText_length ps _) h8

/-! ## C82 -/

/-- letters of short names are letters -/
theorem letter_of {ci : Bool} {d c : Char} (hc : 97 ≤ c.toNat ∧ c.toNat ≤ 122) (h : eqc ci d c = true) :
    (65 ≤ d.toNat ∧ d.toNat ≤ 90) ∨ (97 ≤ d.toNat ∧ d.toNat ≤ 122) := by
  have hl : c.toLower = c := by
    unfold Char.toLower
    split
    · rename_i hx
      exfalso
      have h3 : 65 ≤ c.toNat ∧ c.toNat ≤ 90 := ⟨UInt32.le_iff_toNat_le.mp hx.1, UInt32.le_iff_toNat_le.mp hx.2⟩
      omega
    · rfl
  have h := eqc_lower h
  rw [hl] at h
  unfold Char.toLower at h
  split at h
  · rename_i hx
    left
    exact ⟨UInt32.le_iff_toNat_le.mp hx.1, UInt32.le_iff_toNat_le.mp hx.2⟩
  · right; rw [h]; exact hc

theorem abbrev_letters : ∀ e ∈ abbrevs, 1 ≤ e.must ∧ ∀ c ∈ e.full, 97 ≤ c.toNat ∧ c.toNat ≤ 122 := by decide +kernel

theorem short_letters (ci : Bool) : ∀ (w full : List Char), w.length ≤ full.length → (∀ p ∈ w.zip full, eqc ci p.1 p.2 = true) →
    (∀ c ∈ full, 97 ≤ c.toNat ∧ c.toNat ≤ 122) → ∀ d ∈ w, (65 ≤ d.toNat ∧ d.toNat ≤ 90) ∨ (97 ≤ d.toNat ∧ d.toNat ≤ 122)
  | [], _, _, _, _, d, hd => by simp at hd
  | x :: w, [], h, _, _, d, hd => by simp at h
  | x :: w, c :: f, h, hp, hf, d, hd => by
    simp only [List.zip_cons_cons, List.forall_mem_cons] at hp hf
    rcases List.mem_cons.mp hd with rfl | hd
    · exact letter_of hf.1 hp.1
    · exact short_letters ci w f (by simpa using h) hp.2 hf.2 d hd

/-- letters and the other characters of names -/
def NameChar (d : Char) : Prop := ((65 ≤ d.toNat ∧ d.toNat ≤ 90) ∨ (97 ≤ d.toNat ∧ d.toNat ≤ 122)) ∨ d.toNat = 96 ∨ d.toNat = 46 ∨ d.toNat = 95

instance (d : Char) : Decidable (NameChar d) := by unfold NameChar; infer_instance

theorem letters_lead (ci : Bool) (w : List Char) (hne : w ≠ []) (h : ∀ d ∈ w, NameChar d) : Lead ci w := by
  have no : ∀ c : Char, ¬ NameChar c → c ∉ w := fun c hc hm => hc (h c hm)
  have nh : ∀ c : Char, ¬ NameChar c → w.head? ≠ some c := fun c hc hm => no c hc (List.mem_of_mem_head? hm)
  refine ⟨⟨hne, ?_, ?_, nh _ (by decide), nh _ (by decide)⟩, ?_, ?_, ?_⟩
  · intro c hc
    have := h c hc
    simp only [NameChar] at this
    simp only [isGraph, Bool.and_eq_true, decide_eq_true_eq]
    omega
  · intro c hc
    by_contra hx
    simp only [isTermChar, isSpace, Bool.or_eq_true, Bool.not_eq_false, beq_iff_eq, Bool.and_eq_true, decide_eq_true_eq] at hx
    have := h c hc
    rcases hx with ((((((hx | hx) | hx) | hx) | hx) | hx) | hx) | hx
    · simp only [NameChar] at this; omega
    all_goals (subst hx; exact absurd this (by decide))
  · intro c hc
    refine nh c ?_
    simp only [List.mem_cons, List.not_mem_nil, or_false] at hc
    rcases hc with rfl | rfl | rfl | rfl | rfl <;> decide
  · rintro ⟨t, ht⟩
    exact no '/' (by decide) (by rw [← ht]; simp)
  · rintro ⟨h1, h2, h3⟩
    have hlen : w.length = 7 := le_antisymm h2 h1
    have hm : (w[6]'(by omega), '>') ∈ w.zip ['g', 'n', 'u', 'c', 'a', 'p', '>'] := by
      rw [List.mem_iff_getElem]
      exact ⟨6, by simp [hlen], by simp⟩
    have := eqc_mark ci (w[6]'(by omega)) '>' (by decide) (h3 _ hm)
    exact no '>' (by decide) (by rw [← this]; exact List.getElem_mem _)

/-- **C82, short names.** A line whose first word is the beginning of a full name, at least as long as it must be, in any case if cases do
not matter, with marks and prompts in front or not, runs the command of that full name, with the text behind the word. -/
theorem short_runs (ci : Bool) (m : Map ℕ) (f : Front) (hf : f.ok) (e : Abbrev) (he : e ∈ abbrevs) (w rest : List Char)
    (h : Short ci e.must e.full w) (hr : isTerm rest = true) : proc ci m (f.text (w ++ rest)) = answer ci m e.name (skipcom rest) := by
  obtain ⟨h1, h2⟩ := abbrev_letters e he
  have hne : w ≠ [] := by
    rintro rfl
    have := h.1
    simp at this
    omega
  have hw := letters_lead ci w hne fun d hd => .inl (short_letters ci w e.full h.2.1 h.2.2 h2 d hd)
  exact proc_short ci m _ w rest (strip_front ci f hf w rest hw hr) hw hr e he h

example : proc true booted (['g', 'n', 'u', 'c', 'a', 'p', '>', ' '] ++ ['T', 'r', 'a', 'n'] ++ [' ', '1'])
    = answer true booted ['t', 'r', 'a', 'n', 's', 'i', 'e', 'n', 't'] ['1'] :=
  short_runs true booted ⟨[], none, [[]]⟩ (by simp [Front.ok]) ⟨2, ['t', 'r', 'a', 'n', 's', 'i', 'e', 'n', 't'],
    ['t', 'r', 'a', 'n', 's', 'i', 'e', 'n', 't']⟩ (by decide) ['T', 'r', 'a', 'n'] [' ', '1'] (by decide) rfl

/-- **C82, other words**: any other first word is looked up as it is. -/
theorem long_runs (ci : Bool) (m : Map ℕ) (f : Front) (hf : f.ok) (w rest : List Char) (hw : Lead ci w)
    (h : ∀ e ∈ abbrevs, ¬ Short ci e.must e.full w) (hr : isTerm rest = true) :
    proc ci m (f.text (w ++ rest)) = answer ci m w (skipcom rest) :=
  proc_long ci m _ w rest (strip_front ci f hf w rest hw hr) hw hr h

/-! ### the names there are when the program starts -/

def pairs : List (List Char × ℕ) := installed.zipIdx.flatMap fun e => e.1.map (·, e.2)

theorem find_install1 (p : ℕ) (m : Map ℕ) (k n : List Char) (h : find m k = none) : find (install1 p m k) n = if n = k then some p else find m n := by
  unfold install1
  split_ifs with h1 h2 h3 h3
  all_goals first
    | (rw [find_put]; simp_all)
    | exact absurd h h2
    | skip

theorem find_foldl (p : ℕ) : ∀ (l : List (List Char)) (m : Map ℕ) (n : List Char), l.Nodup → (∀ k ∈ l, find m k = none) →
    find (l.foldl (install1 p) m) n = if n ∈ l then some p else find m n
  | [], m, n, _, _ => by simp
  | k :: l, m, n, hn, h => by
    rw [List.nodup_cons] at hn
    rw [List.foldl_cons, find_foldl p l _ n hn.2, find_install1 p m k n (h k (by simp))]
    · by_cases h1 : n = k
      · subst h1; simp [hn.1]
      · simp [h1]
    · intro x hx
      rw [find_install1 p m k x (h k (by simp)), if_neg (by rintro rfl; exact hn.1 hx)]
      exact h x (by simp [hx])

theorem barred_keys : ∀ l ∈ installed, keys (barred l) = l := by decide +kernel

theorem find_booting : ∀ (l : List (List (List Char) × ℕ)) (m : Map ℕ) (n : List Char), (∀ e ∈ l, keys (barred e.1) = e.1) →
    (l.flatMap Prod.fst).Nodup → (∀ k ∈ l.flatMap Prod.fst, find m k = none) →
    find (l.foldl (fun m e => install (barred e.1) e.2 m) m) n =
      match (l.flatMap fun e => e.1.map (·, e.2)).lookup n with
      | some p => some p
      | none => find m n
  | [], m, n, _, _, _ => by simp
  | (e, p) :: l, m, n, hk, hn, h => by
    simp only [List.flatMap_cons] at hn h
    rw [List.nodup_append] at hn
    have h1 : install (barred e) p m = e.foldl (install1 p) m := by
      unfold install
      rw [hk (e, p) (by simp)]
    have h2 : ∀ x, find (install (barred e) p m) x = if x ∈ e then some p else find m x := fun x => by
      rw [h1, find_foldl p e m x hn.1 fun k hk => h k (by simp [hk])]
    rw [List.foldl_cons, find_booting l _ n (fun x hx => hk x (by simp [hx])) hn.2.1]
    · simp only [List.flatMap_cons, h2]
      have h3 : ((e.map (·, p)) ++ (l.flatMap fun e => e.1.map (·, e.2))).lookup n =
          if n ∈ e then some p else (l.flatMap fun e => e.1.map (·, e.2)).lookup n := by
        rw [List.lookup_append]
        have : (e.map (·, p)).lookup n = if n ∈ e then some p else none := by
          clear h1 h2 hn hk h
          induction e with
          | nil => simp
          | cons k e ih =>
            rw [List.map_cons, List.lookup_cons, ih]
            by_cases hx : n = k
            · simp [hx]
            · have : (n == k) = false := by simpa using hx
              simp [this, hx]
        rw [this]
        split <;> simp
      rw [h3]
      by_cases hx : n ∈ e
      · rw [if_pos hx, if_pos hx]
        have : (l.flatMap fun e => e.1.map (·, e.2)).lookup n = none := by
          rw [List.lookup_eq_none_iff]
          rintro ⟨a, b⟩ hab
          simp only [List.mem_flatMap, List.mem_map, Prod.mk.injEq] at hab
          obtain ⟨y, hy, z, hz, rfl, rfl⟩ := hab
          have := hn.2.2 n hx z (List.mem_flatMap.mpr ⟨y, hy, hz⟩)
          simpa using this
        rw [this]
      · rw [if_neg hx, if_neg hx]
    · intro k hk'
      rw [h2, if_neg]
      · exact h k (List.mem_append_right _ hk')
      · intro hx
        exact hn.2.2 k hx k hk' rfl

theorem names_nodup : (installed.zipIdx.flatMap Prod.fst).Nodup := by decide +kernel

/-- **the registry when the program starts**: every name is that of the command it was installed for, and there is no other -/
theorem find_booted (n : List Char) : find booted n = pairs.lookup n := by
  unfold booted
  rw [find_booting installed.zipIdx [] n (fun e he => barred_keys e.1 (by
    obtain ⟨a, b⟩ := e
    exact (List.mem_zipIdx' he).2 ▸ List.getElem_mem _)) names_nodup (fun _ _ => rfl)]
  unfold pairs
  cases (installed.zipIdx.flatMap fun e => e.1.map (·, e.2)).lookup n <;> rfl

theorem pairs_lower : ∀ e ∈ pairs, Gnucap.Sim.toLower e.1 = e.1 := by decide +kernel

theorem mem_of_lookup {n : List Char} {p : ℕ} (h : pairs.lookup n = some p) : (n, p) ∈ pairs := by
  obtain ⟨l1, l2, he, _⟩ := List.lookup_eq_some_iff.mp h
  rw [he]; simp

theorem short_lower (must : ℕ) (full : List Char) : ∀ w : List Char, Short true must full (Gnucap.Sim.toLower w) ↔ Short true must full w := by
  intro w
  have key : ∀ (w full : List Char), (∀ p ∈ (Gnucap.Sim.toLower w).zip full, eqc true p.1 p.2 = true) ↔ ∀ p ∈ w.zip full, eqc true p.1 p.2 = true := by
    intro w
    induction w with
    | nil => intro full; simp [Gnucap.Sim.toLower]
    | cons d w ih =>
      intro full
      cases full with
      | nil => simp
      | cons c f =>
        have := ih f
        simp only [Gnucap.Sim.toLower, List.map_cons, List.zip_cons_cons, List.forall_mem_cons] at this ⊢
        rw [this]
        have e : eqc true d.toLower c = true ↔ eqc true d c = true := by
          constructor
          · intro h
            have := eqc_lower h
            rw [Gnucap.Param.toLower_idem] at this
            simp [eqc, this]
          · intro h
            have := eqc_lower h
            simp [eqc, Gnucap.Param.toLower_idem, this]
        rw [e]
  unfold Short
  rw [key w full]
  simp [Gnucap.Sim.toLower]

theorem nameChar_lower (d : Char) (h : NameChar d.toLower) : NameChar d := by
  unfold Char.toLower at h
  split at h
  · rename_i hx
    exact .inl (.inl ⟨UInt32.le_iff_toNat_le.mp hx.1, UInt32.le_iff_toNat_le.mp hx.2⟩)
  · exact h

/-- what every name gets to -/
def gets (ci : Bool) (n : List Char) (i : ℕ) : Bool :=
  match abbrevs.find? (fun e => decide (Short ci e.must e.full n)) with
  | some e => decide (pairs.lookup e.name = some i)
  | none => decide (pairs.lookup n = some i)

theorem names_checked : ∀ e ∈ pairs, e.1 ∈ [['!'], ['<'], ['>']] ∨
    (e.1 ≠ [] ∧ (∀ d ∈ e.1, NameChar d) ∧ gets false e.1 e.2 = true ∧ gets true e.1 e.2 = true) := by decide +kernel

theorem answer_found (ci : Bool) (n : List Char) (i : ℕ) (rest : List Char) (h : pairs.lookup n = some i) :
    answer ci booted n rest = .runs i rest := by
  unfold answer
  rw [find_booted, h]
  simp

/-- **C82, full names.** Every name a command was installed under, and every way to write it in capitals if cases do not matter, runs
that command and no other, with marks and prompts in front or not: no short name takes it away. -/
theorem name_runs (ci : Bool) (f : Front) (hf : f.ok) (n : List Char) (i : ℕ) (hn : (n, i) ∈ pairs) (hm : n ∉ [['!'], ['<'], ['>']])
    (w : List Char) (hw : w = n ∨ (ci = true ∧ Gnucap.Sim.toLower w = n)) (rest : List Char) (hr : isTerm rest = true) :
    proc ci booted (f.text (w ++ rest)) = .runs i (skipcom rest) := by
  rcases names_checked (n, i) hn with h | ⟨hne, hch, hg0, hg1⟩
  · exact absurd h hm
  simp only at hne hch hg0 hg1
  have hlow : Gnucap.Sim.toLower n = n := pairs_lower (n, i) hn
  have hwc : ∀ d ∈ w, NameChar d := by
    rcases hw with rfl | ⟨_, rfl⟩
    · exact hch
    · intro d hd
      exact nameChar_lower d (hch _ (List.mem_map.mpr ⟨d, hd, rfl⟩))
  have hwne : w ≠ [] := by
    rcases hw with rfl | ⟨_, rfl⟩
    · exact hne
    · rintro rfl; exact hne rfl
  have hl := letters_lead ci w hwne hwc
  have hshort : ∀ e : Abbrev, Short ci e.must e.full w ↔ Short ci e.must e.full n := by
    intro e
    rcases hw with rfl | ⟨rfl, rfl⟩
    · rfl
    · exact (short_lower e.must e.full w).symm
  have hg : gets ci n i = true := by cases ci <;> assumption
  unfold gets at hg
  cases hfd : abbrevs.find? (fun e => decide (Short ci e.must e.full n)) with
  | some e =>
    rw [hfd] at hg
    have h1 := List.mem_of_find?_eq_some hfd
    have h2 := List.find?_some hfd
    rw [short_runs ci booted f hf e h1 w rest ((hshort e).mpr (by simpa using h2)) hr]
    exact answer_found ci _ i _ (by simpa using hg)
  | none =>
    rw [hfd] at hg
    have h1 := List.find?_eq_none.mp hfd
    rw [long_runs ci booted f hf w rest hl (fun e he hs => h1 e he (by simpa using (hshort e).mp hs)) hr]
    have hg' : pairs.lookup n = some i := by simpa using hg
    rcases hw with rfl | ⟨rfl, hwn⟩
    · exact answer_found ci _ i _ hg'
    · unfold answer
      by_cases hx : w = n
      · rw [find_booted, hx, hg']; simp
      · have : find booted w = none := by
          rw [find_booted]
          by_contra hy
          obtain ⟨j, hj⟩ := Option.ne_none_iff_exists'.mp hy
          have := pairs_lower _ (mem_of_lookup hj)
          simp only at this
          exact hx (by rw [← hwn, this])
        rw [this]
        simp only [and_self, if_true, hwn]
        rw [find_booted, hg']

example : proc false booted (['m', 'e', 'a', 's', 'u', 'r', 'e'] ++ [' ', 'x']) = .runs 53 ['x'] :=
  name_runs false ⟨[], none, []⟩ (by simp [Front.ok]) ['m', 'e', 'a', 's', 'u', 'r', 'e'] 53 (by decide +kernel) (by decide)
    _ (.inl rfl) [' ', 'x'] rfl

/-- **C82, words that are no names**: a word that is neither a name nor short for one runs nothing. -/
theorem unknown (ci : Bool) (m : Map ℕ) (f : Front) (hf : f.ok) (w rest : List Char) (hw : Lead ci w)
    (h : ∀ e ∈ abbrevs, ¬ Short ci e.must e.full w) (hr : isTerm rest = true) (h1 : find m w = none)
    (h2 : ci = true → find m (Gnucap.Sim.toLower w) = none) : proc ci m (f.text (w ++ rest)) = .whats := by
  rw [long_runs ci m f hf w rest hw h hr]
  unfold answer
  cases ci with
  | false => simp [h1]
  | true => simp [h1, h2 rfl]

example : proc true booted ['f', 'o', 'o'] = .whats := by
  have := unknown true booted ⟨[], none, []⟩ (by simp [Front.ok]) ['f', 'o', 'o'] [] (letters_lead _ _ (by decide) (by decide)) (by decide +kernel)
    rfl (by rw [find_booted]; decide +kernel) (fun _ => by rw [find_booted]; decide +kernel)
  exact this

/-! ### marks -/

theorem strip_mark (ci : Bool) (s t : List Char) (c : Char) (hs : skipbl s = c :: t) (hc : plain c = true) (h : c = '*' → t.head? ≠ some '>') :
    strip ci s = s := by
  have h1 : umatch ci antiComment s = .fail := by
    rw [umatch_sound ci _ _ anti_segs.1, anti_segs.2, hs]
    by_cases hx : c = '*'
    · subst hx
      rw [mark_matches, mark_fails ci '>' (by decide) t _ (h rfl)]
    · rw [mark_fails ci '*' (by decide) _ _ (by simpa using hx)]
  have h2 : umatch ci prompt s = .fail := by
    rw [umatch_sound ci _ _ prompt_segs.1, prompt_segs.2, hs]
    have : segMatch ci (['g', 'n', 'u', 'c', 'a', 'p', '>'].map .lit ++ [.delim]) (c :: t) = none := by
      simp only [List.map_cons, List.cons_append, segMatch]
      rw [if_neg]
      intro hx
      have := letter_of (by decide) hx
      simp only [plain, Bool.and_eq_true, Bool.not_eq_true', Bool.or_eq_false_iff, Bool.and_eq_false_iff, decide_eq_false_iff_not] at hc
      omega
    rw [this]
  unfold strip
  simp only [h1]
  cases s.length with
  | zero => rfl
  | succ n => simp only [prompts, h2]

theorem abbrev_segs : ∀ e ∈ abbrevs, ∃ x r, e.segs = .lit x :: r ∧ 97 ≤ x.toNat ∧ x.toNat ≤ 122 := by
  intro e he
  obtain ⟨h1, h2⟩ := abbrev_letters e he
  obtain ⟨-, -, h3⟩ := abbrev_sound e he
  obtain ⟨k, hk⟩ : ∃ k, e.must = k + 1 := ⟨e.must - 1, by omega⟩
  obtain ⟨x, f, hx⟩ : ∃ x f, e.full = x :: f := by
    cases hf : e.full with
    | nil => rw [hf] at h3; simp at h3; omega
    | cons x f => exact ⟨x, f, rfl⟩
  refine ⟨x, (f.take k).map .lit ++ [.opt (e.full.drop e.must), .delim], ?_, h2 x (by rw [hx]; simp)⟩
  unfold Abbrev.segs
  rw [hk, hx, List.take_succ_cons, List.map_cons, List.cons_append]

theorem choose_mark (ci : Bool) (s t : List Char) (c : Char) (hs : skipbl s = c :: t) (hc : plain c = true)
    (tail : List (List Char × List Char)) : ∀ l : List Abbrev, (∀ e ∈ l, e ∈ abbrevs) →
    choose ci s (l.map (fun e => (e.pattern, e.name)) ++ tail) = choose ci s tail
  | [], _ => rfl
  | e :: l, h => by
    have he := h e (by simp)
    obtain ⟨x, r, h1, h2⟩ := abbrev_segs e he
    obtain ⟨h3, h4, -⟩ := abbrev_sound e he
    have : umatch ci e.pattern s = .fail := by
      rw [umatch_sound ci _ _ h3, h4, h1, hs]
      have : segMatch ci (.lit x :: r) (c :: t) = none := by
        simp only [segMatch]
        rw [if_neg]
        intro hx
        have := letter_of h2 hx
        simp only [plain, Bool.and_eq_true, Bool.not_eq_true', Bool.or_eq_false_iff, Bool.and_eq_false_iff, decide_eq_false_iff_not] at hc
        omega
      rw [this]
    simp only [List.map_cons, List.cons_append, choose, this]
    exact choose_mark ci s t c hs hc tail l fun x hx => h x (by simp [hx])

theorem no_comment (ci : Bool) (s t : List Char) (c : Char) (hs : skipbl s = c :: t) (hc : c ∈ ['!', '<', '>']) : umatch ci comments s = .fail := by
  have h1 : ∀ d ∈ ['\'', '*', '#', '/', '"'], s.head? ≠ some d ∧ c ≠ d := by
    intro d hd
    have hcd : c ≠ d := by
      simp only [List.mem_cons, List.not_mem_nil, or_false] at hc hd
      rcases hc with rfl | rfl | rfl <;> rcases hd with rfl | rfl | rfl | rfl | rfl <;> decide
    refine ⟨?_, hcd⟩
    rcases blank_head hs with rfl | ⟨x, u, rfl, hx⟩
    · simpa using hcd
    · simp only [List.head?_cons, ne_eq, Option.some.injEq]
      rintro rfl
      simp only [List.mem_cons, List.not_mem_nil, or_false] at hd
      rcases hd with rfl | rfl | rfl | rfl | rfl <;> exact absurd hx (by decide)
  rw [comments_eq, hs, mark_fails ci '\'' (by decide) _ _ (by simpa using (h1 '\'' (by simp)).2)]
  simp only
  rw [others_none ci s]
  · intro d hd
    exact (h1 d (by
      simp only [List.mem_cons, List.not_mem_nil, or_false] at hd ⊢
      tauto)).1
  · rintro ⟨u, hu⟩
    exact (h1 '/' (by simp)).1 (by rw [← hu]; rfl)

/-- **C82, marks**: `!`, `<` and `>` need nothing behind them. -/
theorem mark_runs (ci : Bool) (m : Map ℕ) (b t : List Char) (hb : ∀ c ∈ b, isSpace c = true) :
    proc ci m (b ++ '!' :: t) = answer ci m ['s', 'y', 's', 't', 'e', 'm'] (skipcom t) ∧
    proc ci m (b ++ '<' :: t) = answer ci m ['<'] (skipcom t) ∧
    proc ci m (b ++ '>' :: t) = answer ci m ['>'] (skipcom t) := by
  have hs : ∀ c, isGraph c = true → skipbl (b ++ c :: t) = c :: t := fun c hc => by rw [skipbl_blanks b _ hb, skipbl_cons t hc]
  have h1 := hs '!' (by decide)
  have h2 := hs '<' (by decide)
  have h3 := hs '>' (by decide)
  refine ⟨?_, ?_, ?_⟩
  · unfold proc
    simp only
    rw [strip_mark ci _ t '!' h1 (by decide) (fun h => absurd h (by decide)), no_comment ci _ t '!' h1 (by simp), shorts_eq, choose_mark ci _ t '!' h1 (by decide) _ _ fun _ h => h]
    simp only [choose]
    rw [umatch_mark ci '!' (by decide), h1]
    exact answer_lookup ci m ['s', 'y', 's', 't', 'e', 'm'] _
  · unfold proc
    simp only
    rw [strip_mark ci _ t '<' h2 (by decide) (fun h => absurd h (by decide)), no_comment ci _ t '<' h2 (by simp), shorts_eq, choose_mark ci _ t '<' h2 (by decide) _ _ fun _ h => h]
    simp only [choose]
    rw [umatch_mark ci '!' (by decide), umatch_mark ci '<' (by decide), h2]
    exact answer_lookup ci m ['<'] _
  · unfold proc
    simp only
    rw [strip_mark ci _ t '>' h3 (by decide) (fun h => absurd h (by decide)), no_comment ci _ t '>' h3 (by simp), shorts_eq, choose_mark ci _ t '>' h3 (by decide) _ _ fun _ h => h]
    simp only [choose]
    rw [umatch_mark ci '!' (by decide), umatch_mark ci '<' (by decide), umatch_mark ci '>' (by decide), h3]
    exact answer_lookup ci m ['>'] _

/-! ### comments -/

/-- how a comment begins -/
def Remark (s : List Char) : Prop :=
  (∃ t, s = '\'' :: t) ∨ (∃ t, s = '#' :: t) ∨ (∃ t, s = '"' :: t) ∨ (∃ t, s = '/' :: '/' :: t) ∨ ∃ t, s = '*' :: t ∧ t.head? ≠ some '>'

/-- **C82, comments (partial: nothing in front).** A line that begins with one of the marks of a comment runs nothing. -/
theorem comment_partial (ci : Bool) (m : Map ℕ) (s : List Char) (h : Remark s) : proc ci m s = .nothing := by
  have hd : ∃ c t, s = c :: t ∧ plain c = true ∧ isGraph c = true ∧ (c = '*' → t.head? ≠ some '>') := by
    rcases h with ⟨t, rfl⟩ | ⟨t, rfl⟩ | ⟨t, rfl⟩ | ⟨t, rfl⟩ | ⟨t, rfl, ht⟩
    · exact ⟨_, _, rfl, by decide, by decide, fun h => absurd h (by decide)⟩
    · exact ⟨_, _, rfl, by decide, by decide, fun h => absurd h (by decide)⟩
    · exact ⟨_, _, rfl, by decide, by decide, fun h => absurd h (by decide)⟩
    · exact ⟨_, _, rfl, by decide, by decide, fun h => absurd h (by decide)⟩
    · exact ⟨_, _, rfl, by decide, by decide, fun _ => ht⟩
  obtain ⟨c, t, rfl, h1, h2, h3⟩ := hd
  unfold proc
  simp only
  rw [strip_mark ci _ t c (skipbl_cons t h2) h1 h3, comments_eq, skipbl_cons t h2]
  rcases h with ⟨t, h⟩ | ⟨t, h⟩ | ⟨t, h⟩ | ⟨t, h⟩ | ⟨t, h, ht⟩
  all_goals
    cases h
    rcases ci <;> simp [segMatch, firstMatch, otherComments, eqc]

example : Remark ['#', ' ', 'q', 'u', 'i', 't'] := .inr (.inl ⟨_, rfl⟩)

/-- **C82 fails for an indented comment**: behind blanks only `'` is seen as a mark, and `"quit"` quits. -/
theorem indented_comment_wrong (ci : Bool) : proc ci booted [' ', '"', 'q', 'u', 'i', 't', '"'] = .runs 14 [] ∧
    proc ci booted ['"', 'q', 'u', 'i', 't', '"'] = .nothing ∧ (['q', 'u', 'i', 't'], 14) ∈ pairs := by
  refine ⟨?_, comment_partial ci _ _ (.inr (.inr (.inl ⟨_, rfl⟩))), by decide +kernel⟩
  have hs : skipbl [' ', '"', 'q', 'u', 'i', 't', '"'] = ['"', 'q', 'u', 'i', 't', '"'] := by decide
  unfold proc
  simp only
  rw [strip_mark ci _ _ '"' hs (by decide) (by decide), comments_eq, hs, mark_fails ci '\'' (by decide) _ _ (by decide)]
  simp only
  rw [others_none ci _ (by decide) (by decide), shorts_eq, choose_mark ci _ _ '"' hs (by decide) _ _ fun _ h => h]
  simp only [choose]
  rw [umatch_mark ci '!' (by decide), umatch_mark ci '<' (by decide), umatch_mark ci '>' (by decide), hs]
  have : word [' ', '"', 'q', 'u', 'i', 't', '"'] = (['q', 'u', 'i', 't'], []) := by decide
  simp only [this, show ('"' = '!') = False by decide, show ('"' = '<') = False by decide, show ('"' = '>') = False by decide, if_false]
  have hq : pairs.lookup ['q', 'u', 'i', 't'] = some 14 := by decide +kernel
  rw [lookup_answer, find_booted, hq]
  simp

/-- **in general**: behind a blank, what would be a comment is taken for a command -/
theorem indented_taken (ci : Bool) (m : Map ℕ) (b s : List Char) (hb : ∀ c ∈ b, isSpace c = true) (hne : b ≠ []) (hr : Remark s)
    (hq : s.head? ≠ some '\'') : proc ci m (b ++ s) ≠ .nothing := by
  have hd : ∃ c t, s = c :: t ∧ plain c = true ∧ isGraph c = true ∧ (c = '*' → t.head? ≠ some '>') := by
    rcases hr with ⟨t, rfl⟩ | ⟨t, rfl⟩ | ⟨t, rfl⟩ | ⟨t, rfl⟩ | ⟨t, rfl, ht⟩
    · exact ⟨_, _, rfl, by decide, by decide, fun h => absurd h (by decide)⟩
    · exact ⟨_, _, rfl, by decide, by decide, fun h => absurd h (by decide)⟩
    · exact ⟨_, _, rfl, by decide, by decide, fun h => absurd h (by decide)⟩
    · exact ⟨_, _, rfl, by decide, by decide, fun h => absurd h (by decide)⟩
    · exact ⟨_, _, rfl, by decide, by decide, fun _ => ht⟩
  obtain ⟨c, t, rfl, h1, h2, h3⟩ := hd
  have hs : skipbl (b ++ c :: t) = c :: t := by rw [skipbl_blanks b _ hb, skipbl_cons t h2]
  obtain ⟨x, b', rfl⟩ := List.exists_cons_of_ne_nil hne
  have hx := hb x (by simp)
  have hxm : ∀ d ∈ ['*', '#', '"', '/'], x ≠ d := by
    rintro d hd rfl
    simp only [List.mem_cons, List.not_mem_nil, or_false] at hd
    rcases hd with rfl | rfl | rfl | rfl <;> exact absurd hx (by decide)
  unfold proc
  simp only
  rw [strip_mark ci _ t c hs h1 h3, comments_eq, hs, mark_fails ci '\'' (by decide) _ _ hq]
  simp only
  rw [others_none ci]
  · simp only
    split
    · intro h; cases h
    · intro h; cases h
    · split <;> (intro h; cases h)
  · intro d hd
    simp only [List.cons_append, List.head?_cons, ne_eq, Option.some.injEq]
    exact hxm d (by
      simp only [List.mem_cons, List.not_mem_nil, or_false] at hd ⊢
      tauto)
  · rintro ⟨u, hu⟩
    simp only [List.cons_append, List.cons.injEq] at hu
    exact hxm '/' (by simp) hu.1.symm

/-- **a command installed under a short name is never run by it**: here a new command `l` -/
theorem hidden_name (ci : Bool) (rest : List Char) (hr : isTerm rest = true) :
    proc ci (install ['l'] 1000 booted) (['l'] ++ rest) = .runs 28 (skipcom rest) ∧ find (install ['l'] 1000 booted) ['l'] = some 1000 := by
  have h := short_runs ci (install ['l'] 1000 booted) ⟨[], none, []⟩ (by simp [Front.ok]) ⟨1, ['l', 'i', 's', 't'], ['l', 'i', 's', 't']⟩
    (by decide) ['l'] rest (by cases ci <;> decide) hr
  refine ⟨?_, install_finds _ _ _ _ (by decide)⟩
  have e : Front.text ⟨[], none, []⟩ (['l'] ++ rest) = ['l'] ++ rest := rfl
  rw [e] at h
  rw [h]
  unfold answer
  have : find (install ['l'] 1000 booted) ['l', 'i', 's', 't'] = some 28 :=
    install_keeps _ _ _ _ _ (by decide) (by rw [find_booted]; decide +kernel)
  rw [this]
  simp

end Gnucap.Cmd
