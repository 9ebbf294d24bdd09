import Verif.FilesModel
import Verif.CmdProps

/-!
# What the lines of a file do (C94)

What a line is is said here by its first word; what a file means by a relation on lines, with no cursors, no keys and no fuel.
-/
namespace Gnucap.Files
open Gnucap.Scan Gnucap.Spice Gnucap.Dispatch Gnucap.Cmd

/-! ## first words -/

/-- the line without the blanks in front -/
def front (l : List Char) : List Char := l.dropWhile fun c => !isGraph c

theorem skipbl_front (l : List Char) : skipbl l = front l := by
  induction l with
  | nil => rfl
  | cons c r ih =>
    unfold skipbl front
    by_cases h : isGraph c = true
    · simp [h]
    · simp only [Bool.not_eq_true] at h
      simpa [h, front] using ih

/-- the first word of `l` is `k`, up to case if so set, and `r` follows it -/
def Begins (ci : Bool) (k l r : List Char) : Prop := ∃ w, front l = w ++ r ∧ Same ci w k ∧ isTerm r = true

/-- the first word of `l` is `k` -/
def First (ci : Bool) (k l : List Char) : Prop := ∃ r, Begins ci k l r

/-! ## keys -/

theorem not_special {k : List Char} (h : ∀ c ∈ k, isTermChar c = false ∧ c ≠ '\\' ∧ c ≠ '|') : ∀ c ∈ k, special c = false := by
  intro c hc
  obtain ⟨h1, h2, h3⟩ := h c hc
  simp only [isTermChar, Bool.or_eq_false_iff, beq_eq_false_iff_ne] at h1
  simp only [special, Bool.or_eq_false_iff, beq_eq_false_iff_ne]
  refine ⟨⟨⟨⟨h2, h1.1.1.2⟩, h1.1.2⟩, h3⟩, ?_⟩
  rintro rfl
  exact absurd h1.1.1.1.1.1.1.1 (by decide)

/-- a name as it may be written: no blanks, nothing that ends a word, nothing that has a meaning in patterns -/
structure Name (k : List Char) : Prop where
  plain : Plain k
  free : ∀ c ∈ k, c ≠ '\\' ∧ c ≠ '|'

theorem Name.special {k : List Char} (h : Name k) : ∀ c ∈ k, special c = false :=
  not_special fun c hc => ⟨h.plain.noTerm c hc, h.free c hc⟩

theorem lits_text (k : List Char) : segText (k.map .lit) = k := by
  induction k with
  | nil => rfl
  | cons c k ih => rw [segText] at ih ⊢; simp only [List.map_cons, List.flatMap_cons, Seg.text, ih]; rfl

theorem segText_append (a b : List Seg) : segText (a ++ b) = segText a ++ segText b := by simp [segText]

theorem lits_wf {k : List Char} (h : ∀ c ∈ k, special c = false) : ∀ s ∈ k.map Seg.lit, s.wf = true := by
  intro s hs
  obtain ⟨c, hc, rfl⟩ := List.mem_map.mp hs
  simp [Seg.wf, h c hc]

/-- a pattern of one alternative never reads past its end -/
theorem single_ok (ci : Bool) (a : List Seg) (h : ∀ s ∈ a, s.wf = true) (l : List Char) (P : Prop)
    (hP : P ↔ ∃ x, segMatch ci a (skipbl l) = some x) :
    (P → ∃ x, umatch ci (segText a) l = .ok x) ∧ (¬ P → umatch ci (segText a) l = .fail) := by
  rw [umatch_single ci a h]
  cases hx : segMatch ci a (skipbl l) with
  | some r => exact ⟨fun _ => ⟨_, rfl⟩, fun hn => absurd (hP.mpr ⟨r, hx⟩) hn⟩
  | none =>
    refine ⟨fun hp => ?_, fun _ => rfl⟩
    obtain ⟨x, hx'⟩ := hP.mp hp
    rw [hx] at hx'; cases hx'

theorem first_segs (ci : Bool) (k : List Char) (r : List Seg) (l : List Char) (hr : ∀ s, ∃ x, segMatch ci r s = some x) :
    First ci k l ↔ ∃ x, segMatch ci (k.map .lit ++ .delim :: r) (skipbl l) = some x := by
  rw [skipbl_front]
  constructor
  · rintro ⟨t, w, h1, h2, h3⟩
    obtain ⟨x, hx⟩ := hr (skipbl t)
    exact ⟨x, (segMatch_lits ci k _ _ _).mpr ⟨w, t, h1, h2, by simp only [segMatch, h3, if_true, hx]⟩⟩
  · rintro ⟨x, hx⟩
    obtain ⟨w, t, h1, h2, h3⟩ := (segMatch_lits ci k _ _ _).mp hx
    simp only [segMatch] at h3
    split at h3
    · exact ⟨t, w, h1, h2, ‹_›⟩
    · cases h3

/-- **a key that is one word**: the lines that begin with it -/
theorem key_word (ci : Bool) (k l : List Char) (hk : ∀ c ∈ k, special c = false) :
    (First ci k l → ∃ x, umatch ci (k ++ [' ']) l = .ok x) ∧ (¬ First ci k l → umatch ci (k ++ [' ']) l = .fail) := by
  have := single_ok ci (k.map .lit ++ [.delim]) (by
    intro s hs
    rcases List.mem_append.mp hs with h | h
    · exact lits_wf hk s h
    · simp at h; subst h; rfl) l _ (first_segs ci k [] l fun s => ⟨s, rfl⟩)
  rwa [segText_append, lits_text] at this

def dEnd : List Char := ['.', 'e', 'n', 'd']
def dEnds : List Char := ['.', 'e', 'n', 'd', 's']
def dEom : List Char := ['.', 'e', 'o', 'm']
def dEndl : List Char := ['.', 'e', 'n', 'd', 'l']
def dLib : List Char := ['.', 'l', 'i', 'b']

/-- **C94, the end of a file**: `.end` -/
theorem end_key (ci : Bool) (l : List Char) :
    (First ci dEnd l → ∃ x, umatch ci keyEnd l = .ok x) ∧ (¬ First ci dEnd l → umatch ci keyEnd l = .fail) :=
  key_word ci dEnd l (by decide)

example : First true dEnd [' ', '.', 'E', 'N', 'D', ' ', 'x'] ∧ ¬ First true dEnd ['.', 'e', 'n', 'd', 's'] := by
  refine ⟨⟨[' ', 'x'], ['.', 'E', 'N', 'D'], by decide, ?_, by decide⟩, ?_⟩
  · repeat first | exact .nil | refine .cons (by decide) ?_
  · rintro ⟨r, w, h1, h2, h3⟩
    have hl : w.length = 4 := h2.length_eq
    have h1' : w ++ r = ['.', 'e', 'n', 'd', 's'] := h1.symm
    have : r = ['s'] := by
      have := congrArg (List.drop 4) h1'
      simpa [hl] using this
    subst this
    exact absurd h3 (by decide)

/-- **C94, the end of a section**: `.endl`, whatever name follows it -/
theorem endl_key (ci : Bool) (sec l : List Char) (hs : ∀ c ∈ sec, special c = false) :
    (First ci dEndl l → ∃ x, umatch ci (keyEndl sec) l = .ok x) ∧ (¬ First ci dEndl l → umatch ci (keyEndl sec) l = .fail) := by
  have := single_ok ci (dEndl.map .lit ++ .delim :: [.opt sec]) (by
    intro s hx
    rcases List.mem_append.mp hx with h | h
    · exact lits_wf (by decide) s h
    · simp at h
      rcases h with rfl | rfl
      · rfl
      · simpa [Seg.wf, List.all_eq_true] using hs) l _ (first_segs ci dEndl [.opt sec] l fun s => ⟨_, rfl⟩)
  rw [segText_append, lits_text] at this
  have e : dEndl ++ segText (.delim :: [.opt sec]) = keyEndl sec := by simp [segText, Seg.text, dEndl, keyEndl]
  rwa [e] at this

/-- the line opens the section: `.lib`, and the name alone -/
def Opens (ci : Bool) (sec l : List Char) : Prop := ∃ r w t, Begins ci dLib l r ∧ front r = w ++ t ∧ Same ci w sec ∧ isTerm t = true

theorem lib_key (ci : Bool) (sec l : List Char) (hs : ∀ c ∈ sec, special c = false) :
    (Opens ci sec l → ∃ x, umatch ci (keyLib sec) l = .ok x) ∧ (¬ Opens ci sec l → umatch ci (keyLib sec) l = .fail) := by
  have hP : Opens ci sec l ↔ ∃ x, segMatch ci (dLib.map .lit ++ .delim :: (sec.map .lit ++ [.delim])) (skipbl l) = some x := by
    rw [skipbl_front]
    constructor
    · rintro ⟨r, w, t, ⟨v, h1, h2, h3⟩, h4, h5, h6⟩
      refine ⟨skipbl t, (segMatch_lits ci dLib _ _ _).mpr ⟨v, r, h1, h2, ?_⟩⟩
      simp only [segMatch, h3, if_true]
      refine (segMatch_lits ci sec _ _ _).mpr ⟨w, t, by rw [skipbl_front, h4], h5, ?_⟩
      simp only [segMatch, h6, if_true]
    · rintro ⟨x, hx⟩
      obtain ⟨v, r, h1, h2, h3⟩ := (segMatch_lits ci dLib _ _ _).mp hx
      simp only [segMatch] at h3
      split at h3
      · rename_i h3'
        obtain ⟨w, t, h4, h5, h6⟩ := (segMatch_lits ci sec _ _ _).mp h3
        simp only [segMatch] at h6
        split at h6
        · exact ⟨r, w, t, ⟨v, h1, h2, h3'⟩, by rw [← skipbl_front, h4], h5, ‹_›⟩
        · cases h6
      · cases h3
  have := single_ok ci (dLib.map .lit ++ .delim :: (sec.map .lit ++ [.delim])) (by
    intro s hx
    rcases List.mem_append.mp hx with h | h
    · exact lits_wf (by decide) s h
    · rcases List.mem_cons.mp h with rfl | h
      · rfl
      · rcases List.mem_append.mp h with h | h
        · exact lits_wf hs s h
        · simp at h; subst h; rfl) l _ hP
  have e : segText (dLib.map .lit ++ .delim :: (sec.map .lit ++ [.delim])) = keyLib sec := by
    rw [segText_append, lits_text, show (Seg.delim :: (sec.map Seg.lit ++ [.delim])) = [.delim] ++ sec.map .lit ++ [.delim] by simp,
      segText_append, segText_append, lits_text]
    simp [segText, Seg.text, keyLib, dLib]
  rwa [e] at this

/-- the line ends a subcircuit: `.ends`, or `.eom` with nothing in front of it -/
def Closes (ci : Bool) (l : List Char) : Prop := First ci dEnds l ∨ ∃ w r, l = w ++ r ∧ Same ci w dEom ∧ isTerm r = true

/-- **C94, the end of a subcircuit** -/
theorem ends_key (ci : Bool) (l : List Char) :
    (Closes ci l → ∃ x, umatch ci keyEnds l = .ok x) ∧ (¬ Closes ci l → umatch ci keyEnds l = .fail) := by
  have e : keyEnds = segText (dEnds.map .lit ++ [.delim]) ++ tailText (some (segText (dEom.map .lit ++ [.delim]) ++ tailText none)) := by decide
  have w1 : ∀ s ∈ dEnds.map Seg.lit ++ [.delim], s.wf = true := by decide
  have w2 : ∀ s ∈ dEom.map Seg.lit ++ [.delim], s.wf = true := by decide
  have h1 := first_segs ci dEnds [] l fun s => ⟨s, rfl⟩
  have h2 : (∃ w r, l = w ++ r ∧ Same ci w dEom ∧ isTerm r = true) ↔ ∃ x, segMatch ci (dEom.map .lit ++ [.delim]) l = some x := by
    constructor
    · rintro ⟨w, r, h1, h2, h3⟩
      exact ⟨skipbl r, (segMatch_lits ci dEom _ _ _).mpr ⟨w, r, h1, h2, by simp only [segMatch, h3, if_true]⟩⟩
    · rintro ⟨x, hx⟩
      obtain ⟨w, t, h1, h2, h3⟩ := (segMatch_lits ci dEom _ _ _).mp hx
      simp only [segMatch] at h3
      split at h3
      · exact ⟨w, t, h1, h2, ‹_›⟩
      · cases h3
  unfold Closes
  rw [h1, h2]
  unfold umatch
  rw [e, go_segs ci _ _ _ _ w1]
  cases hx : segMatch ci (dEnds.map .lit ++ [.delim]) (skipbl l) with
  | some r => exact ⟨fun _ => ⟨_, rfl⟩, fun hn => absurd (.inl ⟨r, rfl⟩) hn⟩
  | none =>
    simp only [onFail]
    rw [go_segs ci _ _ _ _ w2]
    cases hy : segMatch ci (dEom.map .lit ++ [.delim]) l with
    | some r => exact ⟨fun _ => ⟨_, rfl⟩, fun hn => absurd (.inr ⟨r, rfl⟩) hn⟩
    | none => simp [onFail]

/-! ## commands by name -/

/-- `v` is the name `n` as written: cases do not matter, if so set -/
def Written (ci : Bool) (v n : List Char) : Prop := v = n ∨ (ci = true ∧ Gnucap.Sim.toLower v = n)

/-- there is a command of that name -/
def Named (ci : Bool) (v : List Char) : Prop := ∃ n i, (n, i) ∈ pairs ∧ Written ci v n

theorem lookup_isSome (n : List Char) : (pairs.lookup n).isSome = true ↔ ∃ i, (n, i) ∈ pairs := by
  rw [List.lookup_isSome_iff]
  constructor
  · rintro ⟨⟨m, i⟩, h1, h2⟩
    have h2' : n = m := by simpa using h2
    subst h2'
    exact ⟨i, h1⟩
  · rintro ⟨i, hi⟩
    exact ⟨(n, i), hi, by simp⟩

theorem known_iff (ci : Bool) (w : List Char) : known ci w = true ↔ Named ci w := by
  have h1 : known ci w = true ↔ answer ci booted w [] ≠ .whats := by
    rw [← answer_lookup ci booted w []]
    unfold known
    cases (lookup ci w booted).2 <;> simp
  have h2 : answer ci booted w [] ≠ .whats ↔
      (if pairs.lookup w = none ∧ ci = true then pairs.lookup (Gnucap.Sim.toLower w) else pairs.lookup w).isSome = true := by
    unfold answer
    rw [find_booted, find_booted]
    generalize (if pairs.lookup w = none ∧ ci = true then pairs.lookup (Gnucap.Sim.toLower w) else pairs.lookup w) = o
    cases o <;> simp
  rw [h1, h2]
  constructor
  · intro h
    split at h
    · rename_i hc
      obtain ⟨i, hi⟩ := (lookup_isSome _).mp h
      exact ⟨_, i, hi, .inr ⟨hc.2, rfl⟩⟩
    · obtain ⟨i, hi⟩ := (lookup_isSome _).mp h
      exact ⟨_, i, hi, .inl rfl⟩
  · rintro ⟨n, i, hi, rfl | ⟨hc, rfl⟩⟩
    · have := (lookup_isSome _).mpr ⟨i, hi⟩
      rw [if_neg]
      · exact this
      · rintro ⟨h, _⟩; rw [h] at this; cases this
    · have := (lookup_isSome _).mpr ⟨i, hi⟩
      split
      · exact this
      · rename_i hx
        cases hy : pairs.lookup w with
        | some k => rfl
        | none => exact absurd ⟨hy, hc⟩ hx

theorem single_names : ∀ e ∈ pairs, e.1.length = 1 → e.1 ∈ [['!'], ['<'], ['>']] := by decide +kernel

theorem upper_letters : ∀ n < 26, 65 ≤ (Char.ofNat (97 + n)).toUpper.toNat := by decide

theorem toUpper_mark (x m : Char) (hm : m.toNat < 65) (h : x.toUpper = m) : x = m := by
  by_cases hc : 97 ≤ x.toNat ∧ x.toNat ≤ 122
  · exfalso
    have h1 := upper_letters (x.toNat - 97) (by omega)
    rw [show 97 + (x.toNat - 97) = x.toNat by omega, Char.ofNat_toNat, h] at h1
    omega
  · unfold Char.toUpper at h
    rw [dif_neg] at h
    · exact h
    · rintro ⟨h1, h2⟩
      exact hc ⟨UInt32.le_iff_toNat_le.mp h1, UInt32.le_iff_toNat_le.mp h2⟩

theorem toLower_mark (x m : Char) (hm : m.toNat < 65) (h : x.toLower = m) : x = m := by
  unfold Char.toLower at h
  split at h
  · rename_i hc
    exfalso
    have h1 : 65 ≤ x.val.toNat ∧ x.val.toNat ≤ 90 := ⟨UInt32.le_iff_toNat_le.mp hc.1, UInt32.le_iff_toNat_le.mp hc.2⟩
    have h2 : (x.val + (32 : UInt32)).toNat = m.toNat := congrArg Char.toNat h
    rw [UInt32.toNat_add, show (32 : UInt32).toNat = 32 from rfl] at h2
    omega
  · exact h

/-- the letter of a device -/
def letter (ci : Bool) (x : Char) : Char := if ci then x.toUpper else x

theorem letter_no_command (ci : Bool) (x : Char) (hx : x ∉ ['<', '>', '!']) : ¬ Named ci [letter ci x] := by
  rintro ⟨n, i, hi, hw⟩
  have hl : n.length = 1 := by
    rcases hw with rfl | ⟨_, rfl⟩
    · rfl
    · simp [Gnucap.Sim.toLower]
  have hm := single_names (n, i) hi hl
  have key : ∀ m : Char, m.toNat < 65 → n = [m] → x = m := by
    intro m hm' hn
    have h1 : letter ci x = m := by
      rcases hw with h | ⟨_, h⟩
      · rw [hn] at h; simpa using h
      · rw [hn] at h
        exact toLower_mark _ m hm' (by simpa [Gnucap.Sim.toLower] using h)
    unfold letter at h1
    split at h1
    · exact toUpper_mark x m hm' h1
    · exact h1
  simp only [List.mem_cons, List.not_mem_nil, or_false] at hm hx
  rcases hm with h | h | h
  · exact hx (.inr (.inr (key '!' (by decide) h)))
  · exact hx (.inl (key '<' (by decide) h))
  · exact hx (.inr (.inl (key '>' (by decide) h)))

/-! ## what a line is -/

theorem anti_plain (ci : Bool) (s : List Char) (x : Char) (r : List Char) (hs : skipbl s = x :: r) (h : x = '*' → r.head? ≠ some '>') :
    anti ci s = s := by
  unfold anti
  have : umatch ci antiComment s = .fail := by
    rw [Opt.umatch_sound ci _ _ anti_segs.1, anti_segs.2, hs]
    by_cases hx : x = '*'
    · subst hx
      rw [mark_matches, mark_fails ci '>' (by decide) r _ (h rfl)]
    · rw [mark_fails ci '*' (by decide) _ _ (by simpa using hx)]
  rw [this]

theorem pre_plain (ci : Bool) (l : List Char) (x : Char) (r : List Char) (hl : front l = x :: r) (h1 : x ≠ '>') (h2 : x = '*' → r.head? ≠ some '>') :
    pre ci l = x :: r := by
  have hs : skipbl l = x :: r := by rw [skipbl_front, hl]
  have hi : skipbl (x :: r) = x :: r := by rw [← hs, Spice.skipbl_idem]
  have hp : ∀ n, cktPrompts ci n (x :: r) = x :: r := by
    intro n
    cases n with
    | zero => rfl
    | succ n =>
      unfold cktPrompts cktPrompt
      rw [umatch_mark ci '>' (by decide), hi]
      simp [h1]
  unfold pre
  simp only [hs]
  rw [hp]
  exact anti_plain ci _ x r hi h2

/-- an instance or a comment: its first character is the letter of a device, and no mark -/
def Card (ci : Bool) (dev : List Char → Bool) (l : Line) : Prop :=
  ∃ x r, front l = x :: r ∧ x ∉ ['.', '<', '>', '!'] ∧ (x = '*' → r.head? ≠ some '>') ∧ dev [letter ci x] = true

theorem front_graph {l r : List Char} {x : Char} (h : front l = x :: r) : isGraph x = true := by
  have := List.head?_dropWhile_not (fun c => !isGraph c) l
  unfold front at h
  rw [h] at this
  simpa using this

/-- **C94, instances.** A line whose first character is the letter of a device makes an instance, whatever cards there are. -/
theorem card_line (ci : Bool) (dev found : List Char → Bool) (l s : Line) (h : Card ci dev l) (hs : skipbl s = front l) :
    kind ci dev found s l = .elem := by
  obtain ⟨x, r, h1, h2, h3, h4⟩ := h
  simp only [List.mem_cons, List.not_mem_nil, or_false, not_or] at h2
  have ht : typeOf ci (x :: r) = [letter ci x] := by
    unfold typeOf
    rw [anti_plain ci _ x r (skipbl_cons r (front_graph h1)) h3]
    split
    · rename_i heq; simp only [List.cons.injEq] at heq; exact absurd heq.1 h2.1
    · rename_i heq; simp only [List.cons.injEq] at heq; rw [← heq.1]; rfl
    · rename_i heq; cases heq
  unfold kind isDot
  rw [hs, h1, ht]
  have hk : known ci [letter ci x] = false := by
    by_contra hn
    exact letter_no_command ci x (by simp [h2]) ((known_iff ci _).mp (by simpa using hn))
  simp [hk, h4]

example : Card true (fun n => n == ['R']) [' ', 'r', '1', ' ', '1', ' ', '0', ' ', '1', 'k'] :=
  ⟨'r', ['1', ' ', '1', ' ', '0', ' ', '1', 'k'], by decide, by decide, by decide, by decide⟩

theorem kind_blank (ci : Bool) (dev found : List Char → Bool) (s l : Line) (h : skipbl s = []) : kind ci dev found s l = .blank := by
  unfold kind; rw [if_pos h]

theorem written_lead (ci : Bool) (v n : List Char) (i : ℕ) (hn : (n, i) ∈ pairs) (hm : n ∉ [['!'], ['<'], ['>']]) (hw : Written ci v n) :
    Lead ci v := by
  rcases names_checked (n, i) hn with h | ⟨hne, hch, -, -⟩
  · exact absurd h hm
  refine letters_lead ci v ?_ ?_
  · rcases hw with rfl | ⟨_, rfl⟩
    · exact hne
    · rintro rfl; exact hne rfl
  · rcases hw with rfl | ⟨_, rfl⟩
    · exact hch
    · intro d hd
      exact nameChar_lower d (hch _ (List.mem_map.mpr ⟨d, hd, rfl⟩))

/-- no card has the name of a command -/
def Clear (ci : Bool) (found : List Char → Bool) : Prop := ∀ n, found n = true → ¬ Named ci n

theorem kind_of (ci : Bool) (dev found : List Char → Bool) (l s w : Line) (hs : skipbl s = front l) (hl : front l ≠ [])
    (ht : typeOf ci (front l) = w) (hw : Named ci w) (hf : Clear ci found) : kind ci dev found s l = parseCommand ci (pre ci l) := by
  unfold kind isDot
  rw [hs, if_neg hl, ht]
  have h1 : found w = false := by
    by_contra hx
    exact hf w (by simpa using hx) hw
  simp [h1, (known_iff ci w).mpr hw]

/-- what the command of a line does with the text behind its name -/
def kindOf (i : ℕ) (rest : List Char) : Kind := match What.runs i rest with
  | .runs k rest =>
    if named k nSubckt then .sub
    else if named k nLib then .lib rest
    else if named k nIncl then .incl rest
    else if named k nMerge then .merge rest
    else if named k nRun then .run rest
    else if named k nGet then .get rest
    else if named k nBuild then .build
    else if named k nFile then .file false rest
    else if named k nFileRel then .file true rest
    else .cmd
  | _ => .cmd

theorem kindCmd_runs {ci : Bool} {s rest : List Char} {i : ℕ} (h : proc ci booted s = .runs i rest) : kindCmd ci s = kindOf i rest := by
  unfold kindCmd; rw [h]; rfl

theorem dot_head (ci : Bool) (v n : List Char) (hw : Written ci v ('.' :: n)) : ∃ v', v = '.' :: v' := by
  rcases hw with rfl | ⟨_, h⟩
  · exact ⟨n, rfl⟩
  · cases v with
    | nil => cases h
    | cons c v =>
      simp only [Gnucap.Sim.toLower, List.map_cons, List.cons.injEq] at h
      exact ⟨v, by rw [toLower_mark c '.' (by decide) h.1]⟩

/-- **C94, commands with a dot in their name.** -/
theorem dotted_line (ci : Bool) (dev found : List Char → Bool) (l s v n rest : List Char) (i : ℕ) (hn : ('.' :: n, i) ∈ pairs)
    (hw : Written ci v ('.' :: n)) (hl : front l = v ++ rest) (hr : isTerm rest = true) (hs : skipbl s = front l) (hf : Clear ci found) :
    kind ci dev found s l = kindOf i (skipcom rest) := by
  have hm : ('.' :: n) ∉ [['!'], ['<'], ['>']] := by simp
  have hlead := written_lead ci v _ i hn hm hw
  obtain ⟨v', rfl⟩ := dot_head ci v n hw
  have hN : Named ci ('.' :: v') := ⟨_, i, hn, hw⟩
  have hg : isGraph '.' = true := by decide
  have hword : word ('.' :: (v' ++ rest)) = ('.' :: v', skipcom rest) := word_plain _ _ hlead.plain hr
  have ht : typeOf ci (front l) = '.' :: v' := by
    unfold typeOf
    rw [hl, List.cons_append, anti_plain ci _ '.' _ (skipbl_cons _ hg) (by simp)]
    simp only [hword]
    rw [if_pos ((known_iff ci _).mpr hN)]
  rw [kind_of ci dev found l s _ hs (by rw [hl]; simp) ht hN hf, pre_plain ci l '.' (v' ++ rest) (by rw [hl]; rfl) (by decide) (by simp)]
  unfold parseCommand
  rw [hword, if_pos ((known_iff ci _).mpr hN)]
  have := name_runs ci ⟨[], none, []⟩ (by simp [Front.ok]) _ i hn hm _ hw rest hr
  exact kindCmd_runs this

/-- **C94, commands behind a dot.** -/
theorem order_line (ci : Bool) (dev found : List Char → Bool) (l s v n rest : List Char) (i : ℕ) (hn : (n, i) ∈ pairs)
    (hm : n ∉ [['!'], ['<'], ['>']]) (hw : Written ci v n) (hd : ¬ Named ci ('.' :: v)) (hl : front l = '.' :: (v ++ rest))
    (hr : isTerm rest = true) (hs : skipbl s = front l) (hf : Clear ci found) :
    kind ci dev found s l = kindOf i (skipcom rest) := by
  have hlead := written_lead ci v _ i hn hm hw
  have hN : Named ci v := ⟨_, i, hn, hw⟩
  have hg : isGraph '.' = true := by decide
  have hp : Plain ('.' :: v) := by
    refine ⟨by simp, ?_, ?_, by simp, by simp⟩
    · intro c hc
      rcases List.mem_cons.mp hc with rfl | hc
      · exact hg
      · exact hlead.plain.graph c hc
    · intro c hc
      rcases List.mem_cons.mp hc with rfl | hc
      · decide
      · exact hlead.plain.noTerm c hc
  have hword : word ('.' :: (v ++ rest)) = ('.' :: v, skipcom rest) := word_plain _ _ hp hr
  have hk : known ci ('.' :: v) = false := by
    by_contra hx; exact hd ((known_iff ci _).mp (by simpa using hx))
  have ht : typeOf ci (front l) = v := by
    unfold typeOf
    rw [hl, anti_plain ci _ '.' _ (skipbl_cons _ hg) (by simp)]
    simp only [hword, hk]
    rfl
  rw [kind_of ci dev found l s _ hs (by rw [hl]; simp) ht hN hf, pre_plain ci l '.' _ hl (by decide) (by simp)]
  unfold parseCommand
  rw [hword, hk]
  have := name_runs ci ⟨[], none, []⟩ (by simp [Front.ok]) _ i hn hm _ hw rest hr
  exact kindCmd_runs this

/-! ## running -/

section
variable {σ : Type}

/-- whatever the one gives, the other gives -/
def Le {α : Type} (a b : Option α) : Prop := ∀ o, a = some o → b = some o

theorem Le.refl {α : Type} (a : Option α) : Le a a := fun _ h => h

theorem Le.bind {α β : Type} {a b : Option α} {f g : α → Option β} (h : Le a b) (hf : ∀ x, Le (f x) (g x)) : Le (a.bind f) (b.bind g) := by
  intro o ho
  obtain ⟨x, hx, hy⟩ := Option.bind_eq_some_iff.mp ho
  exact Option.bind_eq_some_iff.mpr ⟨x, h x hx, hf x o hy⟩

theorem Le.map {α β : Type} {a b : Option α} {f : α → β} (h : Le a b) : Le (a.map f) (b.map f) := by
  intro o ho
  obtain ⟨x, hx, hy⟩ := Option.map_eq_some_iff.mp ho
  exact Option.map_eq_some_iff.mpr ⟨x, h x hx, hy⟩

theorem Le.andThen {β : Type} (r : Stat × State σ) (bad : Stat → State σ → Option β) {f g : State σ → Option β}
    (h : ∀ st, Le (f st) (g st)) : Le (Files.andThen r bad f) (Files.andThen r bad g) := by
  obtain ⟨s, st⟩ := r
  cases s <;> first | exact h st | exact Le.refl _

theorem Le.inMode (m : Mode) (ls : List Line) (st : State σ) {f g : State σ → Option (Out σ)} (h : ∀ st, Le (f st) (g st)) :
    Le (Files.inMode m ls st f) (Files.inMode m ls st g) := Le.map (h _)

theorem step_le (c : Cfg σ) (f g : Task → State σ → Option (Out σ)) (h : ∀ t st, Le (f t st) (g t st)) : ∀ t st, Le (step c f t st) (step c g t st)
  | .body owner list key blank [], st => Le.refl _
  | .body owner list key blank (l :: t), st => by
    simp only [step]
    split
    · exact Le.refl _
    · split
      · exact Le.refl _
      · exact Le.refl _
      · refine Le.bind (h _ _) fun r => ?_
        split
        · exact h _ _
        · exact Le.refl _
        · exact Le.refl _
  | .line owner list s l t, st => by
    simp only [step]
    split
    · exact Le.refl _
    · exact Le.refl _
    · exact Le.refl _
    · exact Le.refl _
    · refine Le.andThen _ _ fun st => Le.bind (h _ _) fun r => ?_
      split <;> exact Le.refl _
    · split
      · exact Le.map (h _ _)
      · exact Le.refl _
    · exact Le.map (h _ _)
    · exact Le.inMode _ _ _ fun st => h _ _
    · exact Le.inMode _ _ _ fun st => Le.andThen _ _ fun st => h _ _
    · refine Le.andThen _ _ fun st => Le.inMode _ _ _ fun st => h _ _
    · exact Le.map (h _ _)
    · split
      · exact Le.refl _
      · exact Le.map (h _ _)
  | .merge scope header rest, st => by
    simp only [step]
    split
    · exact Le.refl _
    · refine Le.andThen _ _ fun st => ?_
      split
      · exact Le.refl _
      · split
        · split
          · exact Le.refl _
          · refine Le.andThen _ _ fun st => ?_
            split <;> exact h _ _
        · split <;> exact h _ _
  | .sections scope sec [], st => Le.refl _
  | .sections scope sec (l :: t), st => by
    simp only [step]
    split
    · exact Le.refl _
    · exact h _ _
    · refine Le.bind (h _ _) fun r => ?_
      split
      · exact h _ _
      · exact Le.refl _
  | .top list [], st => Le.refl _
  | .top list (l :: t), st => by
    simp only [step]
    refine Le.bind (h _ _) fun r => ?_
    split
    · exact h _ _
    · exact Le.refl _
    · exact Le.refl _

theorem run_succ (c : Cfg σ) : ∀ (n : ℕ) (t : Task) (st : State σ), Le (run c n t st) (run c (n + 1) t st)
  | 0, _, _ => fun o h => by cases h
  | n + 1, t, st => step_le c (run c n) (run c (n + 1)) (run_succ c n) t st

theorem run_le (c : Cfg σ) (n m : ℕ) (h : n ≤ m) (t : Task) (st : State σ) : Le (run c n t st) (run c m t st) := by
  induction h with
  | refl => exact Le.refl _
  | step _ ih => exact fun o ho => run_succ c _ t st o (ih o ho)

/-- it ends so, with enough fuel -/
def Runs (c : Cfg σ) (t : Task) (st : State σ) (o : Out σ) : Prop := ∃ n, run c n t st = some o

/-- **C94, one outcome**: fuel matters only for whether it is enough. -/
theorem runs_unique (c : Cfg σ) (t : Task) (st : State σ) (o o' : Out σ) (h : Runs c t st o) (h' : Runs c t st o') : o = o' := by
  obtain ⟨n, hn⟩ := h
  obtain ⟨m, hm⟩ := h'
  have h1 := run_le c n (max n m) (le_max_left _ _) t st o hn
  have h2 := run_le c m (max n m) (le_max_right _ _) t st o' hm
  rw [h1] at h2
  exact Option.some.inj h2

/-- **C94, the run mode is kept**: however reading ends, by an exception or not, the mode is the one it began with (`merge`, `get`, `<` and
`build` read in another). -/
theorem mode_kept (c : Cfg σ) : ∀ (n : ℕ) (t : Task) (st : State σ) (o : Out σ), run c n t st = some o → o.2.2.mode = st.mode := by
  have he : ∀ e st, (emit c e st).2.mode = st.mode := fun e st => rfl
  have hand : ∀ (r : Stat × State σ) (bad : Stat → State σ → Option (Out σ)) (k : State σ → Option (Out σ)) (m : Mode) (o : Out σ),
      r.2.mode = m → (∀ s st o, bad s st = some o → st.mode = m → o.2.2.mode = m) → (∀ st o, k st = some o → st.mode = m → o.2.2.mode = m) →
      andThen r bad k = some o → o.2.2.mode = m := by
    rintro ⟨s, st⟩ bad k m o h1 h2 h3 h4
    cases s
    · exact h3 st o h4 h1
    all_goals exact h2 _ st o h4 h1
  have hwarn : ∀ l t rel old st, (warned c l t rel old st).2.2.mode = st.mode := by
    intro l t rel old st
    unfold warned
    have := he (.warn l) st
    generalize emit c (.warn l) st = r at this
    obtain ⟨s, st'⟩ := r
    cases s
    · simp only [andThen]
      split <;> exact this
    all_goals exact this
  intro n
  induction n with
  | zero => intro t st o h; cases h
  | succ n ih =>
    intro t st o h
    change step c (run c n) t st = some o at h
    cases t with
    | body owner list key blank ls =>
      cases ls with
      | nil => simp only [step, Option.some.injEq] at h; rw [← h]
      | cons l t =>
        simp only [step] at h
        split at h
        · simp only [Option.some.injEq] at h; rw [← h]
        · split at h
          · simp only [Option.some.injEq] at h; rw [← h]
          · simp only [Option.some.injEq] at h; rw [← h]
          · obtain ⟨r, hr, hk⟩ := Option.bind_eq_some_iff.mp h
            have h1 := ih _ _ _ hr
            split at hk
            · exact (ih _ _ _ hk).trans h1
            · simp only [Option.some.injEq] at hk; rw [← hk]; exact h1
            · simp only [Option.some.injEq] at hk; rw [← hk]; exact h1
    | line owner list s l t =>
      simp only [step] at h
      split at h
      · simp only [Option.some.injEq] at h; rw [← h]
      · simp only [Option.some.injEq] at h; rw [← h]
      · simp only [Option.some.injEq] at h; rw [← h]; rfl
      · simp only [Option.some.injEq] at h; rw [← h]; rfl
      · refine hand _ _ _ st.mode o (he _ _) ?_ ?_ h
        · intro s st' o h hm; simp only [Option.some.injEq] at h; rw [← h]; exact hm
        · intro st' o h hm
          obtain ⟨r, hr, hk⟩ := Option.bind_eq_some_iff.mp h
          have h1 := (ih _ _ _ hr).trans hm
          split at hk
          · simp only [Option.some.injEq] at hk; rw [← hk]; exact h1
          · simp only [Option.some.injEq] at hk; rw [← hk]; exact h1
      · split at h
        · obtain ⟨r, hr, hk⟩ := Option.map_eq_some_iff.mp h
          have h1 := ih _ _ _ hr; rw [← hk]; exact h1
        · simp only [Option.some.injEq] at h
          rw [← h]
          clear h
          induction t with
          | nil => rfl
          | cons l t iht => simp only [skipLib]; split <;> first | rfl | exact iht
      · obtain ⟨r, hr, hk⟩ := Option.map_eq_some_iff.mp h
        have h1 := ih _ _ _ hr; rw [← hk]; exact h1
      · obtain ⟨r, hr, hk⟩ := Option.map_eq_some_iff.mp h
        rw [← hk]
      · obtain ⟨r, hr, hk⟩ := Option.map_eq_some_iff.mp h
        rw [← hk]
      · have hc : ∀ (n : ℕ) (s : List Char) (st : State σ) (sc : Scope), (clears c sc n s st).2.2.mode = st.mode := by
          intro n
          induction n with
          | zero => intro s st sc; rfl
          | succ n ihn =>
            intro s st sc
            cases s with
            | nil => rfl
            | cons d r =>
              by_cases hd : d = '<'
              · subst hd
                simp only [clears]
                generalize hr : emit c (.clear sc) st = r'
                have h3 : r'.2.mode = st.mode := by rw [← hr]; rfl
                obtain ⟨e, st'⟩ := r'
                cases e
                · exact (ihn _ _ _).trans h3
                all_goals exact h3
              · unfold clears
                split
                · rename_i heq; simp only [List.cons.injEq] at heq; exact absurd heq.1 hd
                · rfl
        refine hand _ _ _ st.mode o (hc _ _ _ _) ?_ ?_ h
        · intro s st' o h hm; simp only [Option.some.injEq] at h; rw [← h]; exact hm
        · intro st' o h hm
          obtain ⟨r, hr, hk⟩ := Option.map_eq_some_iff.mp h
          rw [← hk]; exact hm
      · obtain ⟨r, hr, hk⟩ := Option.map_eq_some_iff.mp h
        rw [← hk]
      · split at h
        · simp only [Option.some.injEq] at h
          rw [← h]
          exact hwarn _ _ _ _ _
        · obtain ⟨r, hr, hk⟩ := Option.map_eq_some_iff.mp h
          have h1 := ih _ _ _ hr
          split at hk
          · rw [← hk]; split <;> exact h1
          · rw [← hk]; exact (hwarn _ _ _ _ _).trans h1
          · rw [← hk]; exact h1
    | merge scope header rest =>
      simp only [step] at h
      split at h
      · simp only [Option.some.injEq] at h; rw [← h]
      · refine hand _ _ _ st.mode o (by split <;> rfl) ?_ ?_ h
        · intro s st' o h hm; simp only [Option.some.injEq] at h; rw [← h]; exact hm
        · intro st' o h hm
          split at h
          · simp only [Option.some.injEq] at h; rw [← h]; exact hm
          · split at h
            · split at h
              · simp only [Option.some.injEq] at h; rw [← h]; exact hm
              · refine hand _ _ _ st.mode o ((he _ _).trans hm) ?_ ?_ h
                · intro s st' o h hm; simp only [Option.some.injEq] at h; rw [← h]; exact hm
                · intro st' o h hm
                  split at h <;> exact (ih _ _ _ h).trans hm
            · split at h <;> exact (ih _ _ _ h).trans hm
    | sections scope sec ls =>
      cases ls with
      | nil => simp only [step, Option.some.injEq] at h; rw [← h]
      | cons l t =>
        simp only [step] at h
        split at h
        · simp only [Option.some.injEq] at h; rw [← h]
        · exact ih _ _ _ h
        · obtain ⟨r, hr, hk⟩ := Option.bind_eq_some_iff.mp h
          have h1 := ih _ _ _ hr
          split at hk
          · exact (ih _ _ _ hk).trans h1
          · simp only [Option.some.injEq] at hk; rw [← hk]; exact h1
    | top list ls =>
      cases ls with
      | nil => simp only [step, Option.some.injEq] at h; rw [← h]
      | cons l t =>
        simp only [step] at h
        obtain ⟨r, hr, hk⟩ := Option.bind_eq_some_iff.mp h
        have h1 := ih _ _ _ hr
        split at hk
        · exact (ih _ _ _ hk).trans h1
        · simp only [Option.some.injEq] at hk; rw [← hk]; exact h1
        · simp only [Option.some.injEq] at hk; rw [← hk]; exact h1

end

/-! ## lines as a user means them -/

/-- the commands that read lines themselves -/
def readers : List (List Char) := [
  ['.', 's', 'u', 'b', 'c', 'k', 't'], ['.', 'm', 'a', 'c', 'r', 'o'], ['.', 'l', 'i', 'b'], ['l', 'i', 'b'], ['.', 'i', 'n', 'c', 'l', 'u', 'd', 'e'],
  ['.', 'm', 'e', 'r', 'g', 'e'], ['m', 'e', 'r', 'g', 'e'], ['<'], ['.', 'g', 'e', 't'], ['g', 'e', 't'], ['.', 'b', 'u', 'i', 'l', 'd'],
  ['b', 'u', 'i', 'l', 'd'], ['i', 'n', 'c', 'l', 'u', 'd', 'e'], ['`', 'i', 'n', 'c', 'l', 'u', 'd', 'e']]

def Spaces (b : List Char) : Prop := ∀ c ∈ b, isSpace c = true

/-- a command that reads no lines, with its dot -/
def Order (ci : Bool) (l : Line) : Prop := ∃ v n i rest, (n, i) ∈ pairs ∧ n ∉ readers ∧ isTerm rest = true ∧
  ((∃ m, n = '.' :: m ∧ Written ci v n ∧ front l = v ++ rest) ∨
   (n ∉ [['!'], ['<'], ['>']] ∧ Written ci v n ∧ ¬ Named ci ('.' :: v) ∧ front l = '.' :: (v ++ rest)))

/-- `.subckt`, `.macro` -/
def Sub (ci : Bool) (l : Line) : Prop := ∃ v n rest, n ∈ [['.', 's', 'u', 'b', 'c', 'k', 't'], ['.', 'm', 'a', 'c', 'r', 'o']] ∧ Written ci v n ∧
  front l = v ++ rest ∧ isTerm rest = true

/-- a command, blanks, words with blanks between, perhaps blanks behind -/
def Says (ci : Bool) (n : List Char) (l : Line) : List (List Char) → Prop
  | ws => ∃ v, Written ci v n ∧ ∃ gs : List (List Char), ∃ b, gs.length = ws.length ∧ (∀ g ∈ gs, Spaces g ∧ g ≠ []) ∧ Spaces b ∧
    front l = v ++ ((gs.zip ws).flatMap (fun e => e.1 ++ e.2) ++ b)

/-- a section is given a name that is no option -/
structure Section (ci : Bool) (sec : List Char) : Prop where
  name : Name sec
  word : ∀ k ∈ [['e', 'c', 'h', 'o'], ['l', 'i', 's', 't'], ['q', 'u', 'i', 'e', 't'], ['s', 'e', 'c', 't', 'i', 'o', 'n']], ¬ Same ci sec k
  no : ∀ k ∈ [['n', 'o', 'e', 'c', 'h', 'o'], ['n', 'o', 'l', 'i', 's', 't'], ['n', 'o', 'q', 'u', 'i', 'e', 't']],
    ∀ p q, sec = p ++ q → ¬ Same ci p k

/-- the words behind a file: `echo`, `list`, `quiet`, also with `no` in front; `section` and a name; or a name alone as the last.  The last
section counts; `s` is the section so far. -/
inductive Asks (ci : Bool) : List Char → List (List Char) → List Char → Prop
  | done {s} : Asks ci s [] s
  | flag {s w k ws s'} : k ∈ [['e', 'c', 'h', 'o'], ['l', 'i', 's', 't'], ['q', 'u', 'i', 'e', 't']] → Same ci w k → Asks ci s ws s' → Asks ci s (w :: ws) s'
  | noFlag {s w k ws s'} : k ∈ [['e', 'c', 'h', 'o'], ['l', 'i', 's', 't'], ['q', 'u', 'i', 'e', 't']] → Same ci w ('n' :: 'o' :: k) → Asks ci s ws s' →
      Asks ci s (w :: ws) s'
  | sec {s w n ws s'} : Same ci w ['s', 'e', 'c', 't', 'i', 'o', 'n'] → Asks ci n ws s' → Asks ci s (w :: n :: ws) s'
  | bare {s n} : Section ci n → Asks ci s [n] n

/-- the command, a file, and words that ask for a section of it (for all of it, if `sec` is empty) -/
def Reads (ci : Bool) (n f sec : List Char) (l : Line) : Prop := Plain f ∧ (sec ≠ [] → Name sec) ∧
  ∃ ws, (∀ w ∈ ws, Plain w) ∧ Asks ci [] ws sec ∧ (n = dLib → ws ≠ []) ∧ Says ci n l (f :: ws)

/-- `.include f` or `.lib f`, with a section or not -/
def Uses (ci : Bool) (f sec : List Char) (l : Line) : Prop := Reads ci ['.', 'i', 'n', 'c', 'l', 'u', 'd', 'e'] f sec l ∨ Reads ci dLib f sec l

/-- `.include f`, all of it -/
def Incl (ci : Bool) (f : List Char) (l : Line) : Prop := Reads ci ['.', 'i', 'n', 'c', 'l', 'u', 'd', 'e'] f [] l

/-- `.lib f sec` -/
def Use (ci : Bool) (f sec : List Char) (l : Line) : Prop := sec ≠ [] ∧ Reads ci dLib f sec l

/-- `.merge f` -/
def Merge (ci : Bool) (f sec : List Char) (l : Line) : Prop := Reads ci ['.', 'm', 'e', 'r', 'g', 'e'] f sec l

/-- `.get f` -/
def Get (ci : Bool) (f sec : List Char) (l : Line) : Prop := Reads ci ['.', 'g', 'e', 't'] f sec l

/-- `< f`, `< < f`: with as many marks behind the first as `ms` has entries -/
def Script (ci : Bool) (ms : List (List Char)) (f sec : List Char) (l : Line) : Prop := Plain f ∧ f.head? ≠ some '<' ∧ (sec ≠ [] → Name sec) ∧
  ∃ ws, (∀ w ∈ ws, Plain w) ∧ Asks ci [] ws sec ∧ ∃ g, Spaces g ∧ g ≠ [] ∧ (∀ m ∈ ms, Spaces m) ∧
  ∃ gs : List (List Char), ∃ b, gs.length = ws.length ∧ (∀ g ∈ gs, Spaces g ∧ g ≠ []) ∧ Spaces b ∧
    front l = '<' :: (g ++ (ms.flatMap (fun m => '<' :: m) ++ (f ++ ((gs.zip ws).flatMap (fun e => e.1 ++ e.2) ++ b))))

/-- `.build` -/
def Build (ci : Bool) (l : Line) : Prop := ∃ v rest, Written ci v ['.', 'b', 'u', 'i', 'l', 'd'] ∧ front l = v ++ rest ∧ isTerm rest = true

/-- `.inc f`: a command of its own -/
def Inc (ci : Bool) (v f : List Char) (l : Line) : Prop := Plain f ∧ Written ci v ['i', 'n', 'c'] ∧ ∃ g b, Spaces g ∧ g ≠ [] ∧ Spaces b ∧
  front l = '.' :: (v ++ (g ++ (f ++ b)))

/-- ``.`include f`` -/
def IncRel (ci : Bool) (f : List Char) (l : Line) : Prop := Plain f ∧ ∃ v g b, Written ci v ['`', 'i', 'n', 'c', 'l', 'u', 'd', 'e'] ∧ Spaces g ∧ g ≠ [] ∧
  Spaces b ∧ front l = '.' :: (v ++ (g ++ (f ++ b)))

/-- a line without a prompt in front -/
def Bare (l : Line) : Prop := ∀ x r, front l = x :: r → x ≠ '>' ∧ (x = '*' → r.head? ≠ some '>')

/-- `.lib sec` -/
def Def (ci : Bool) (sec : List Char) (l : Line) : Prop := Name sec ∧ Says ci dLib l [sec]

/-- the line ends nothing -/
structure Inside (ci : Bool) (l : Line) : Prop where
  fin : ¬ First ci dEnd l
  ends : ¬ Closes ci l
  endl : ¬ First ci dEndl l
  dot : ¬ First ci ['.'] l

/-- the sections of that name in a file, in order; the last one may lack its `.endl` -/
inductive Parts (ci : Bool) (sec : List Char) : List Line → List (List Line) → Prop
  | nil : Parts ci sec [] []
  | other {l t bs} : ¬ Opens ci sec l → Parts ci sec t bs → Parts ci sec (l :: t) bs
  | part {h body e t bs} : Opens ci sec h → First ci dEndl e → Parts ci sec t bs → Parts ci sec (h :: (body ++ e :: t)) (body :: bs)
  | last {h body} : Opens ci sec h → Parts ci sec (h :: body) [body]

/-! ## what a file means -/

/-- lines, one unit of lines, several lists of lines, the lines of a file (or its sections), or a file by name (with a title or not) -/
inductive Src where
  | lines (ls : List Line)
  | item (ls : List Line)
  | each (bs : List (List Line))
  | text (sec : List Char) (ls : List Line)
  | file (title : Bool) (f sec : List Char)

section
variable {σ : Type}

/-- the run mode is another while something is read -/
def State.inMode (m : Mode) (st : State σ) : State σ := { st with mode := m }

/-- the circuit is cleared that often, unless that fails -/
inductive Clears (c : Cfg σ) (sc : Scope) : ℕ → State σ → Stat → State σ → Prop
  | zero {st} : Clears c sc 0 st .ok st
  | succ {n st st1 s st2} : emit c (.clear sc) st = (.ok, st1) → Clears c sc n st1 s st2 → Clears c sc (n + 1) st s st2
  | stop {n st s st1} : emit c (.clear sc) st = (s, st1) → s ≠ .ok → Clears c sc (n + 1) st s st1

/-- **what is meant**: reading lines, for an owner and into a list, from one state to another, well or not -/
inductive Means (c : Cfg σ) : Option Scope → Scope → Src → State σ → Stat → State σ → Prop
  /-- nothing -/
  | done {o L st} : Means c o L (.lines []) st .ok st
  /-- one unit, then the others -/
  | seq {o L h b ls st st1 s st2} : Inside c.ci h → Means c o L (.item (h :: b)) st .ok st1 → Means c o L (.lines ls) st1 s st2 →
      Means c o L (.lines (h :: (b ++ ls))) st s st2
  /-- an exception: the others are not read -/
  | stop {o L h b ls st s st1} : Inside c.ci h → Means c o L (.item (h :: b)) st s st1 → s ≠ .ok → Means c o L (.lines (h :: (b ++ ls))) st s st1
  | blank {o L l st} : front l = [] → Means c o L (.item [l]) st .ok st
  /-- an instance: it has the owner, and is put into the list -/
  | card {o L l st} : Card c.ci c.dev l → Means c o L (.item [l]) st (emit c (.elem o L l) st).1 (emit c (.elem o L l) st).2
  /-- a command: it works on the owner's cards, or on all if there is no owner -/
  | order {o L l st} : Order c.ci l → Means c o L (.item [l]) st (emit c (.cmd (o.getD []) l) st).1 (emit c (.cmd (o.getD []) l) st).2
  /-- a subcircuit: its lines have it as their owner, and it is put where the command works -/
  | sub {o L h body e st st1 st2} : Sub c.ci h → Closes c.ci e → emit c (.opens h) st = (.ok, st1) →
      Means c (some (h :: o.getD [])) (h :: o.getD []) (.lines body) st1 .ok st2 →
      Means c o L (.item (h :: (body ++ [e]))) st (emit c (.closes (o.getD []) h) st2).1 (emit c (.closes (o.getD []) h) st2).2
  | subHead {o L h b st s st1} : Sub c.ci h → emit c (.opens h) st = (s, st1) → s ≠ .ok → Means c o L (.item (h :: b)) st s st1
  | subBody {o L h body b st st1 s st2} : Sub c.ci h → emit c (.opens h) st = (.ok, st1) →
      Means c (some (h :: o.getD [])) (h :: o.getD []) (.lines body) st1 s st2 → s ≠ .ok →
      Means c o L (.item (h :: (body ++ b))) st s st2
  /-- a section that is defined, not used: nothing -/
  | skip {o L h body e sec st} : Def c.ci sec h → (∀ l ∈ body, ¬ First c.ci dEndl l) → First c.ci dEndl e →
      Means c o L (.item (h :: (body ++ [e]))) st .ok st
  /-- a file, or a section of it, where the command works, without an owner -/
  | incl {o L l f sec st s st1} : Uses c.ci f sec l → Means c none (o.getD []) (.file false f sec) st s st1 → Means c o L (.item [l]) st s st1
  /-- `merge`: with commands that only set up -/
  | merge {o L l f sec st s st1} : Merge c.ci f sec l → Means c none (o.getD []) (.file false f sec) (st.inMode .preset) s st1 →
      Means c o L (.item [l]) st s (st1.inMode st.mode)
  /-- `get`: the same in a circuit that is cleared; the file has a title -/
  | get {o L l f sec st st1 s st2} : Get c.ci f sec l → emit c (.clear (o.getD [])) (st.inMode .preset) = (.ok, st1) →
      Means c none (o.getD []) (.file true f sec) st1 s st2 → Means c o L (.item [l]) st s (st2.inMode st.mode)
  | getStop {o L l f sec st s st1} : Get c.ci f sec l → emit c (.clear (o.getD [])) (st.inMode .preset) = (s, st1) → s ≠ .ok →
      Means c o L (.item [l]) st s (st1.inMode st.mode)
  /-- `<`: a file with a title, its commands are run; every other `<` clears the circuit first -/
  | script {o L l ms f sec st st1 s st2} : Script c.ci ms f sec l → Clears c (o.getD []) ms.length st .ok st1 →
      Means c none (o.getD []) (.file true f sec) (st1.inMode .script) s st2 → Means c o L (.item [l]) st s (st2.inMode st1.mode)
  | scriptStop {o L l ms f sec st s st1} : Script c.ci ms f sec l → Clears c (o.getD []) ms.length st s st1 → s ≠ .ok →
      Means c o L (.item [l]) st s st1
  /-- `build`: lines up to a blank one or a dot, without an owner, with commands that only set up -/
  | build {o L h body e st st1} : Build c.ci h → (∀ l ∈ body, front l ≠ []) → (front e = [] ∨ First c.ci ['.'] e) →
      Means c none (o.getD []) (.lines body) (st.inMode .preset) .ok st1 → Means c o L (.item (h :: (body ++ [e]))) st .ok (st1.inMode st.mode)
  | buildStop {o L h body b st s st1} : Build c.ci h → (∀ l ∈ body, front l ≠ []) → Means c none (o.getD []) (.lines body) (st.inMode .preset) s st1 →
      s ≠ .ok → Means c o L (.item (h :: (body ++ b))) st s (st1.inMode st.mode)
  /-- `inc`: a file, searched for, without prompts -/
  | inc {o L l v f fl st s st1} : Inc c.ci v f l → c.dev v = false → c.card o v st.user = false → c.file st.cwd (c.find st.cwd f st.user) st.user = some fl →
      (∀ l ∈ fl, Bare l) → Means c none (o.getD []) (.lines fl) st s st1 → s ≠ .nofile → Means c o L (.item [l]) st s st1
  /-- if it is not there: a warning -/
  | incMissing {o L l v f st} : Inc c.ci v f l → c.dev v = false → c.card o v st.user = false →
      c.file st.cwd (c.find st.cwd f st.user) st.user = none → Means c o L (.item [l]) st (emit c (.warn l) st).1 (emit c (.warn l) st).2
  /-- the same if it names one that is not there -/
  | incBroken {o L l v f fl st st1} : Inc c.ci v f l → c.dev v = false → c.card o v st.user = false →
      c.file st.cwd (c.find st.cwd f st.user) st.user = some fl → (∀ l ∈ fl, Bare l) → Means c none (o.getD []) (.lines fl) st .nofile st1 →
      Means c o L (.item [l]) st (emit c (.warn l) st1).1 (emit c (.warn l) st1).2
  /-- the other `include`: in the directory of the file, and back -/
  | incRel {o L l f fl st st1} : IncRel c.ci f l →
      c.file (c.enter st.cwd (c.dirname (c.find st.cwd f st.user))) (c.basename (c.find st.cwd f st.user)) st.user = some fl → (∀ l ∈ fl, Bare l) →
      Means c none (o.getD []) (.lines fl) { st with cwd := c.enter st.cwd (c.dirname (c.find st.cwd f st.user)) } .ok st1 →
      Means c o L (.item [l]) st .ok { st1 with cwd := st.cwd }
  | incRelMissing {o L l f st st1} : IncRel c.ci f l →
      c.file (c.enter st.cwd (c.dirname (c.find st.cwd f st.user))) (c.basename (c.find st.cwd f st.user)) st.user = none →
      emit c (.warn l) { st with cwd := c.enter st.cwd (c.dirname (c.find st.cwd f st.user)) } = (.ok, st1) →
      Means c o L (.item [l]) st .ok { st1 with cwd := st.cwd }
  | missing {L title f sec st} : c.file st.cwd f st.user = none → Means c none L (.file title f sec) st .nofile st
  | file {L f sec fl st s st1} : c.file st.cwd f st.user = some fl → Means c none L (.text sec fl) st s st1 → Means c none L (.file false f sec) st s st1
  | titled {L f sec h fl st st1 s st2} : c.file st.cwd f st.user = some (h :: fl) → emit c (.title h) st = (.ok, st1) →
      Means c none L (.text sec fl) st1 s st2 → Means c none L (.file true f sec) st s st2
  | titleStop {L f sec h fl st s st1} : c.file st.cwd f st.user = some (h :: fl) → emit c (.title h) st = (s, st1) → s ≠ .ok →
      Means c none L (.file true f sec) st s st1
  /-- the lines up to `.end` -/
  | all {L body tail st s st1} : (tail = [] ∨ ∃ e t, tail = e :: t ∧ First c.ci dEnd e) → Means c none L (.lines body) st s st1 →
      Means c none L (.text [] (body ++ tail)) st s st1
  /-- the sections of that name -/
  | part {L sec fl bs st s st1} : Name sec → Parts c.ci sec fl bs → Means c none L (.each bs) st s st1 → Means c none L (.text sec fl) st s st1
  | eachDone {o L st} : Means c o L (.each []) st .ok st
  | eachSeq {o L b bs st st1 s st2} : Means c o L (.lines b) st .ok st1 → Means c o L (.each bs) st1 s st2 → Means c o L (.each (b :: bs)) st s st2
  | eachStop {o L b bs st s st1} : Means c o L (.lines b) st s st1 → s ≠ .ok → Means c o L (.each (b :: bs)) st s st1

end

/-! ## what the lines do -/

theorem skipcom_spaces (b : List Char) (hb : Spaces b) : skipcom b = [] := by
  have h := Spice.skipbl_blanks b [] hb
  unfold skipcom
  rw [List.append_nil] at h
  rw [h]
  rfl

theorem skipcom_word (g w t : List Char) (hg : Spaces g) (hw : Plain w) : skipcom (g ++ (w ++ t)) = w ++ t := by
  obtain ⟨c, w', rfl⟩ := List.exists_cons_of_ne_nil hw.ne
  have hc : c ≠ ',' := by
    rintro rfl
    exact absurd (hw.noTerm ',' (by simp)) (by decide)
  exact head_skipcom (by rw [Spice.skipbl_blanks g _ hg]; exact skipbl_cons _ (hw.graph c (by simp))) hc

theorem isTerm_spaces (g t : List Char) (hg : Spaces g) (hn : g ≠ []) : isTerm (g ++ t) = true := by
  obtain ⟨c, g', rfl⟩ := List.exists_cons_of_ne_nil hn
  simp only [List.cons_append, isTerm, isTermChar, hg c (by simp), Bool.true_or]

theorem isTerm_blank (b : List Char) (hb : Spaces b) : isTerm b = true := by
  cases b with
  | nil => rfl
  | cons c b => exact isTerm_spaces (c :: b) [] hb (by simp) |> (by simpa using ·)

theorem mergeTry_nil (ci : Bool) (sec : List Char) : mergeTry ci sec [] mergeFlags = some (sec, []) := by
  have h1 : ∀ k ∈ mergeFlags, umatch ci (k ++ [' ']) [] = .fail ∧ umatch ci (['n', 'o'] ++ k) [] = .fail := by
    intro k hk
    simp only [mergeFlags, List.mem_cons, List.not_mem_nil, or_false] at hk
    rcases hk with rfl | rfl | rfl <;>
      exact ⟨by rw [Opt.umatch_sound ci _ _ (by decide)]; rfl, by rw [Opt.umatch_sound ci _ _ (by decide)]; rfl⟩
  have h2 : umatch ci (wSection ++ [' ', '{', '=', '}']) [] = .fail := by
    have := umatch_single ci (wSection.map .lit ++ [.delim, .opt ['=']]) (by decide) []
    rw [show segText (wSection.map .lit ++ [.delim, .opt ['=']]) = wSection ++ [' ', '{', '=', '}'] by decide] at this
    rw [this]; rfl
  unfold mergeFlags at h1 ⊢
  simp only [mergeTry]
  simp only [(h1 _ (by simp : ['e', 'c', 'h', 'o'] ∈ _)), (h1 _ (by simp : ['l', 'i', 's', 't'] ∈ _)), (h1 _ (by simp : ['q', 'u', 'i', 'e', 't'] ∈ _)), h2]

theorem first_of_word {ci : Bool} {k w t : List Char} (hw : ∀ c ∈ w, isTermChar c = false) (hk : ∀ c ∈ k, isTermChar c = false)
    (ht : isTerm t = true) {v r : List Char} (h : w ++ t = v ++ r) (hv : Same ci v k) (hr : isTerm r = true) : v = w := by
  have hv' : ∀ c ∈ v, isTermChar c = false := by
    intro c hc
    by_contra hx
    simp only [Bool.not_eq_false] at hx
    obtain ⟨n, hn, rfl⟩ := List.mem_iff_getElem.mp hc
    have hl := hv.length_eq
    have := List.Forall₂.get hv hn (by omega)
    have h1 := eqc_term ci _ _ this (by simpa using hx)
    have h2 := hk (k[n]'(by omega)) (List.getElem_mem _)
    simp only [List.get_eq_getElem] at h1
    rw [h1, hx] at h2
    cases h2
  rcases List.append_eq_append_iff.mp h with ⟨a, h1, h2⟩ | ⟨a, h1, h2⟩
  · cases a with
    | nil => simpa using h1
    | cons d a =>
      exfalso
      rw [h2] at ht
      have := hv' d (by rw [h1]; simp)
      rw [show isTerm (d :: a ++ r) = isTermChar d from rfl, this] at ht
      cases ht
  · cases a with
    | nil => simpa using h1.symm
    | cons d a =>
      exfalso
      rw [h2] at hr
      have := hw d (by rw [h1]; simp)
      rw [show isTerm (d :: a ++ t) = isTermChar d from rfl, this] at hr
      cases hr

theorem miss_word (ci : Bool) (k w t : List Char) (hk : ∀ c ∈ k, special c = false) (hk' : ∀ c ∈ k, isTermChar c = false) (hw : Plain w)
    (ht : isTerm t = true) (h : ¬ Same ci w k) : umatch ci (k ++ [' ']) (w ++ t) = .fail := by
  refine (key_word ci k _ hk).2 ?_
  rintro ⟨r, v, h1, h2, h3⟩
  have hf : front (w ++ t) = w ++ t := by
    obtain ⟨c, w', rfl⟩ := List.exists_cons_of_ne_nil hw.ne
    rw [← skipbl_front]
    exact skipbl_cons _ (hw.graph c (by simp))
  rw [hf] at h1
  exact h ((first_of_word hw.noTerm hk' ht h1 h2 h3) ▸ h2)

theorem miss_no (ci : Bool) (k w t : List Char) (hk : ∀ c ∈ k, special c = false) (hk' : ∀ c ∈ k, isTermChar c = false) (hw : Plain w)
    (ht : isTerm t = true) (h : ∀ p q, w = p ++ q → ¬ Same ci p k) : umatch ci k (w ++ t) = .fail := by
  have hf : skipbl (w ++ t) = w ++ t := by
    obtain ⟨c, w', rfl⟩ := List.exists_cons_of_ne_nil hw.ne
    exact skipbl_cons _ (hw.graph c (by simp))
  have := umatch_single ci (k.map .lit) (lits_wf hk) (w ++ t)
  rw [lits_text, hf] at this
  rw [this]
  cases hx : segMatch ci (k.map .lit) (w ++ t) with
  | none => rfl
  | some x =>
    exfalso
    obtain ⟨v, r, h1, h2, -⟩ := (segMatch_lits ci k [] _ _).mp (by rw [List.append_nil]; exact hx)
    rcases List.append_eq_append_iff.mp h1 with ⟨a, h3, h4⟩ | ⟨a, h3, h4⟩
    · cases a with
      | nil => exact h w [] (by simp) (by rw [List.append_nil] at h3; rw [← h3]; exact h2)
      | cons d a =>
        have hd : isTermChar d = true := by rw [h4] at ht; exact ht
        have hm : d ∈ v := by rw [h3]; simp
        obtain ⟨n, hn, hnd⟩ := List.mem_iff_getElem.mp hm
        have hl := h2.length_eq
        have := List.Forall₂.get h2 hn (by omega)
        simp only [List.get_eq_getElem] at this
        rw [hnd] at this
        have h5 := eqc_term ci _ _ this hd
        have h6 := hk' (k[n]'(by omega)) (List.getElem_mem _)
        rw [h5, hd] at h6
        cases h6
    · exact h v a h3 h2

/-- a word that is another one does not match -/
theorem differs (ci : Bool) (w k k' t : List Char) (r : List Seg) (h : Same ci w k) (i : ℕ) (h1 : i < k.length) (h2 : i < k'.length)
    (hd : (k[i]).toLower ≠ (k'[i]).toLower) : segMatch ci (k'.map .lit ++ r) (w ++ t) = none := by
  cases hx : segMatch ci (k'.map .lit ++ r) (w ++ t) with
  | none => rfl
  | some x =>
    exfalso
    obtain ⟨m, rest, e1, e2, -⟩ := (segMatch_lits ci k' r _ _).mp hx
    have hl := h.length_eq
    have hl2 := e2.length_eq
    have a1 := List.Forall₂.get h (by omega) h1
    have a2 := List.Forall₂.get e2 (by omega) h2
    simp only [List.get_eq_getElem] at a1 a2
    have e3 : w[i]'(by omega) = m[i]'(by omega) := by
      have h3 : (w ++ t)[i]'(by rw [List.length_append]; omega) = (m ++ rest)[i]'(by rw [List.length_append]; omega) := by simp only [e1]
      rwa [List.getElem_append_left (by omega), List.getElem_append_left (by omega)] at h3
    rw [← e3] at a2
    have low : ∀ a b : Char, eqc ci a b = true → a.toLower = b.toLower := by
      intro a b hab
      simp only [eqc, Bool.or_eq_true, beq_iff_eq, Bool.and_eq_true] at hab
      rcases hab with rfl | ⟨_, h⟩
      · rfl
      · exact h
    exact hd ((low _ _ a1).symm.trans (low _ _ a2))

/-- words with blanks before them -/
def spaced (es : List (List Char × List Char)) (b : List Char) : List Char := es.flatMap (fun e => e.1 ++ e.2) ++ b

structure GoodWords (es : List (List Char × List Char)) (b : List Char) : Prop where
  gaps : ∀ e ∈ es, Spaces e.1 ∧ e.1 ≠ []
  words : ∀ e ∈ es, Plain e.2
  back : Spaces b

theorem GoodWords.tail {e : List Char × List Char} {es : List (List Char × List Char)} {b : List Char} (h : GoodWords (e :: es) b) : GoodWords es b :=
  ⟨fun x hx => h.gaps x (by simp [hx]), fun x hx => h.words x (by simp [hx]), h.back⟩

theorem spaced_term {es : List (List Char × List Char)} {b : List Char} (h : GoodWords es b) : isTerm (spaced es b) = true := by
  cases es with
  | nil => exact isTerm_blank b h.back
  | cons e es =>
    obtain ⟨h1, h2⟩ := h.gaps e (by simp)
    simp only [spaced, List.flatMap_cons, List.append_assoc]
    exact isTerm_spaces e.1 _ h1 h2

/-- what stands before the next word is passed over -/
def next (es : List (List Char × List Char)) (b : List Char) : List Char := match es with
  | [] => []
  | e :: es => e.2 ++ spaced es b

theorem skipcom_spaced {es : List (List Char × List Char)} {b : List Char} (h : GoodWords es b) : skipcom (spaced es b) = next es b := by
  cases es with
  | nil => exact skipcom_spaces b h.back
  | cons e es =>
    simp only [spaced, List.flatMap_cons, List.append_assoc, next]
    exact skipcom_word e.1 e.2 _ (h.gaps e (by simp)).1 (h.words e (by simp))

theorem next_skipbl {es : List (List Char × List Char)} {b : List Char} (h : GoodWords es b) : skipbl (next es b) = next es b := by
  cases es with
  | nil => rfl
  | cons e es =>
    have hp := h.words e (by simp)
    obtain ⟨c, w, hc⟩ := List.exists_cons_of_ne_nil hp.ne
    simp only [next, hc, List.cons_append]
    exact skipbl_cons _ (hp.graph c (by rw [hc]; simp))

theorem next_eq {es : List (List Char × List Char)} {b : List Char} (h : GoodWords es b) : match1 ['='] (next es b) = false := by
  cases es with
  | nil => rfl
  | cons e es =>
    have hp := h.words e (by simp)
    obtain ⟨c, w, hc⟩ := List.exists_cons_of_ne_nil hp.ne
    have : c ≠ '=' := by
      rintro rfl
      exact absurd (hp.noTerm '=' (by rw [hc]; simp)) (by decide)
    simp only [next, hc, List.cons_append, match1]
    simpa using this

theorem skipcom_skipbl (s : List Char) : skipcom (skipbl s) = skipcom s := by unfold skipcom; rw [Spice.skipbl_idem]

theorem next_len {e : List Char × List Char} {es : List (List Char × List Char)} {b : List Char} (h : GoodWords (e :: es) b) :
    (next es b).length < (next (e :: es) b).length := by
  have h1 : (next es b).length ≤ (spaced es b).length := by
    cases es with
    | nil => simp [next]
    | cons x es => simp [next, spaced]
  have h2 : 0 < e.2.length := List.length_pos_of_ne_nil (h.words e (by simp)).ne
  have : (next (e :: es) b).length = e.2.length + (spaced es b).length := by simp [next]
  omega

/-- a flag is passed over -/
theorem try_flag (ci : Bool) (sec w k : List Char) (es : List (List Char × List Char)) (b g : List Char) (hg : GoodWords ((g, w) :: es) b)
    (hk : k ∈ [['e', 'c', 'h', 'o'], ['l', 'i', 's', 't'], ['q', 'u', 'i', 'e', 't']]) (hs : Same ci w k ∨ Same ci w ('n' :: 'o' :: k)) :
    mergeTry ci sec (w ++ spaced es b) mergeFlags = some (sec, next es b) := by
  have hp : Plain w := hg.words (g, w) (by simp)
  have hsk : skipbl (w ++ spaced es b) = w ++ spaced es b := next_skipbl hg
  have hgt := hg.tail
  have hterm := spaced_term hgt
  have hsb : skip1b ['='] (next es b) = (false, next es b) := by
    unfold skip1b
    rw [next_skipbl hgt, next_eq hgt]
    rfl
  have hit : ∀ k, (∀ c ∈ k, special c = false) → Same ci w k → umatch ci (k ++ [' ']) (w ++ spaced es b) = .ok (next es b) := by
    intro k hk h
    have h1 := umatch_single ci (k.map .lit ++ [.delim]) (by
      intro s hs
      rcases List.mem_append.mp hs with h | h
      · exact lits_wf hk s h
      · simp at h; subst h; rfl) (w ++ spaced es b)
    rw [segText_append, lits_text, hsk] at h1
    rw [show (k ++ [' ']) = k ++ segText [.delim] by rfl, h1]
    rw [(segMatch_lits ci k [.delim] _ (skipbl (spaced es b))).mpr ⟨w, _, rfl, h, by simp only [segMatch, hterm, if_true]⟩]
    simp only
    rw [skipcom_skipbl, skipcom_spaced hgt]
  have hitNo : ∀ k, (∀ c ∈ k, special c = false) → Same ci w k → umatch ci k (w ++ spaced es b) = .ok (next es b) := by
    intro k hk h
    have h1 := umatch_single ci (k.map .lit) (lits_wf hk) (w ++ spaced es b)
    rw [lits_text, hsk] at h1
    rw [h1]
    have h2 := (segMatch_lits ci k [] (w ++ spaced es b) (spaced es b)).mpr ⟨w, _, rfl, h, rfl⟩
    rw [List.append_nil] at h2
    rw [h2]
    simp only
    rw [skipcom_spaced hgt]
  have miss : ∀ k k' : List Char, (∀ c ∈ k', special c = false) → Same ci w k → (∃ i : ℕ, ∃ h1 : i < k.length, ∃ h2 : i < k'.length, (k[i]).toLower ≠ (k'[i]).toLower) →
      umatch ci (k' ++ [' ']) (w ++ spaced es b) = .fail ∧ umatch ci k' (w ++ spaced es b) = .fail := by
    rintro k k' hk' h ⟨i, h1, h2, h3⟩
    constructor
    · have e1 := umatch_single ci (k'.map .lit ++ [.delim]) (by
        intro s hs
        rcases List.mem_append.mp hs with h | h
        · exact lits_wf hk' s h
        · simp at h; subst h; rfl) (w ++ spaced es b)
      rw [segText_append, lits_text, hsk, differs ci w k k' _ _ h i h1 h2 h3] at e1
      exact e1
    · have e1 := umatch_single ci (k'.map .lit) (lits_wf hk') (w ++ spaced es b)
      have e2 := differs ci w k k' (spaced es b) [] h i h1 h2 h3
      rw [List.append_nil] at e2
      rw [lits_text, hsk, e2] at e1
      exact e1
  have s1 : ∀ k ∈ [['e', 'c', 'h', 'o'], ['l', 'i', 's', 't'], ['q', 'u', 'i', 'e', 't']], (∀ c ∈ k, special c = false) ∧ ∀ c ∈ 'n' :: 'o' :: k, special c = false := by decide
  have hsb' := hsb
  simp only [List.mem_cons, List.not_mem_nil, or_false] at hk
  unfold mergeFlags
  simp only [mergeTry, List.cons_append, List.nil_append]
  have mE : ∀ k, Same ci w k → (∃ i : ℕ, ∃ h1 : i < k.length, ∃ h2 : i < 4, (k[i]).toLower ≠ (['e', 'c', 'h', 'o'][i]).toLower) →
      umatch ci ['e', 'c', 'h', 'o', ' '] (w ++ spaced es b) = .fail := fun k h h2 => (miss k ['e', 'c', 'h', 'o'] (by decide) h h2).1
  have mL : ∀ k, Same ci w k → (∃ i : ℕ, ∃ h1 : i < k.length, ∃ h2 : i < 4, (k[i]).toLower ≠ (['l', 'i', 's', 't'][i]).toLower) →
      umatch ci ['l', 'i', 's', 't', ' '] (w ++ spaced es b) = .fail := fun k h h2 => (miss k ['l', 'i', 's', 't'] (by decide) h h2).1
  have mQ : ∀ k, Same ci w k → (∃ i : ℕ, ∃ h1 : i < k.length, ∃ h2 : i < 5, (k[i]).toLower ≠ (['q', 'u', 'i', 'e', 't'][i]).toLower) →
      umatch ci ['q', 'u', 'i', 'e', 't', ' '] (w ++ spaced es b) = .fail := fun k h h2 => (miss k ['q', 'u', 'i', 'e', 't'] (by decide) h h2).1
  have nE : ∀ k, Same ci w k → (∃ i : ℕ, ∃ h1 : i < k.length, ∃ h2 : i < 6, (k[i]).toLower ≠ (['n', 'o', 'e', 'c', 'h', 'o'][i]).toLower) →
      umatch ci ['n', 'o', 'e', 'c', 'h', 'o'] (w ++ spaced es b) = .fail := fun k h h2 => (miss k ['n', 'o', 'e', 'c', 'h', 'o'] (by decide) h h2).2
  have nL : ∀ k, Same ci w k → (∃ i : ℕ, ∃ h1 : i < k.length, ∃ h2 : i < 6, (k[i]).toLower ≠ (['n', 'o', 'l', 'i', 's', 't'][i]).toLower) →
      umatch ci ['n', 'o', 'l', 'i', 's', 't'] (w ++ spaced es b) = .fail := fun k h h2 => (miss k ['n', 'o', 'l', 'i', 's', 't'] (by decide) h h2).2
  rcases hk with rfl | rfl | rfl
  · rcases hs with h | h
    · have := hit ['e', 'c', 'h', 'o'] (by decide) h
      simp only [List.cons_append, List.nil_append] at this
      simp only [this, hsb]; rfl
    · rw [mE _ h ⟨0, by decide, by decide, by decide⟩]
      simp only [hitNo ['n', 'o', 'e', 'c', 'h', 'o'] (by decide) h]
  · rcases hs with h | h
    · rw [mE _ h ⟨0, by decide, by decide, by decide⟩, nE _ h ⟨0, by decide, by decide, by decide⟩]
      have := hit ['l', 'i', 's', 't'] (by decide) h
      simp only [List.cons_append, List.nil_append] at this
      simp only [this, hsb]; rfl
    · rw [mE _ h ⟨0, by decide, by decide, by decide⟩, nE _ h ⟨2, by decide, by decide, by decide⟩, mL _ h ⟨0, by decide, by decide, by decide⟩]
      simp only [hitNo ['n', 'o', 'l', 'i', 's', 't'] (by decide) h]
  · rcases hs with h | h
    · rw [mE _ h ⟨0, by decide, by decide, by decide⟩, nE _ h ⟨0, by decide, by decide, by decide⟩, mL _ h ⟨0, by decide, by decide, by decide⟩,
        nL _ h ⟨0, by decide, by decide, by decide⟩]
      have := hit ['q', 'u', 'i', 'e', 't'] (by decide) h
      simp only [List.cons_append, List.nil_append] at this
      simp only [this, hsb]; rfl
    · rw [mE _ h ⟨0, by decide, by decide, by decide⟩, nE _ h ⟨2, by decide, by decide, by decide⟩, mL _ h ⟨0, by decide, by decide, by decide⟩,
        nL _ h ⟨2, by decide, by decide, by decide⟩, mQ _ h ⟨0, by decide, by decide, by decide⟩]
      simp only [hitNo ['n', 'o', 'q', 'u', 'i', 'e', 't'] (by decide) h]

/-- the word is no flag -/
theorem try_past (ci : Bool) (sec w t : List Char) (hp : Plain w) (ht : isTerm t = true)
    (h1 : ∀ k ∈ [['e', 'c', 'h', 'o'], ['l', 'i', 's', 't'], ['q', 'u', 'i', 'e', 't']], ¬ Same ci w k)
    (h2 : ∀ k ∈ [['n', 'o', 'e', 'c', 'h', 'o'], ['n', 'o', 'l', 'i', 's', 't'], ['n', 'o', 'q', 'u', 'i', 'e', 't']], ∀ p q, w = p ++ q → ¬ Same ci p k) :
    mergeTry ci sec (w ++ t) mergeFlags = mergeTry ci sec (w ++ t) [] := by
  have hw : ∀ k ∈ mergeFlags, umatch ci (k ++ [' ']) (w ++ t) = .fail ∧ umatch ci (['n', 'o'] ++ k) (w ++ t) = .fail := by
    intro k hk
    simp only [mergeFlags, List.mem_cons, List.not_mem_nil, or_false] at hk
    rcases hk with rfl | rfl | rfl
    · exact ⟨miss_word ci _ w t (by decide) (by decide) hp ht (h1 _ (by simp)), miss_no ci _ w t (by decide) (by decide) hp ht (h2 _ (by simp))⟩
    · exact ⟨miss_word ci _ w t (by decide) (by decide) hp ht (h1 _ (by simp)), miss_no ci _ w t (by decide) (by decide) hp ht (h2 _ (by simp))⟩
    · exact ⟨miss_word ci _ w t (by decide) (by decide) hp ht (h1 _ (by simp)), miss_no ci _ w t (by decide) (by decide) hp ht (h2 _ (by simp))⟩
  unfold mergeFlags at hw ⊢
  generalize hR : mergeTry ci sec (w ++ t) [] = R
  rw [mergeTry, (hw _ (by simp : ['e', 'c', 'h', 'o'] ∈ _)).1]
  simp only
  rw [(hw _ (by simp : ['e', 'c', 'h', 'o'] ∈ _)).2]
  simp only
  rw [mergeTry, (hw _ (by simp : ['l', 'i', 's', 't'] ∈ _)).1]
  simp only
  rw [(hw _ (by simp : ['l', 'i', 's', 't'] ∈ _)).2]
  simp only
  rw [mergeTry, (hw _ (by simp : ['q', 'u', 'i', 'e', 't'] ∈ _)).1]
  simp only
  rw [(hw _ (by simp : ['q', 'u', 'i', 'e', 't'] ∈ _)).2]
  exact hR

/-- `section` and a name -/
theorem try_section (ci : Bool) (sec w n g g' : List Char) (es : List (List Char × List Char)) (b : List Char)
    (hg : GoodWords ((g, w) :: (g', n) :: es) b) (hs : Same ci w ['s', 'e', 'c', 't', 'i', 'o', 'n']) :
    mergeTry ci sec (w ++ spaced ((g', n) :: es) b) mergeFlags = some (n, next es b) := by
  have hp : Plain w := hg.words (g, w) (by simp)
  have hsk : skipbl (w ++ spaced ((g', n) :: es) b) = w ++ spaced ((g', n) :: es) b := next_skipbl hg
  have hterm := spaced_term hg.tail
  have low : ∀ (k : List Char) (i : ℕ) (h1 : i < 7) (h2 : i < k.length), ((['s', 'e', 'c', 't', 'i', 'o', 'n'] : List Char)[i]).toLower ≠ (k[i]).toLower →
      ∀ p q, w = p ++ q → ¬ Same ci p k := by
    intro k i h1 h2 h3 p q hpq hsame
    have := differs ci w _ k [] [] hs i h1 h2 h3
    rw [(segMatch_lits ci k [] (w ++ []) q).mpr ⟨p, q, by rw [List.append_nil, hpq], hsame, rfl⟩] at this
    cases this
  rw [try_past ci sec w _ hp hterm (fun k hk h => by
      simp only [List.mem_cons, List.not_mem_nil, or_false] at hk
      rcases hk with rfl | rfl | rfl <;> exact low _ 0 (by decide) (by decide) (by decide) w [] (by simp) h)
    (fun k hk => by
      simp only [List.mem_cons, List.not_mem_nil, or_false] at hk
      rcases hk with rfl | rfl | rfl <;> exact low _ 0 (by decide) (by decide) (by decide))]
  have h1 := umatch_single ci (wSection.map .lit ++ .delim :: [.opt ['=']]) (by decide) (w ++ spaced ((g', n) :: es) b)
  rw [show segText (wSection.map .lit ++ .delim :: [.opt ['=']]) = wSection ++ [' ', '{', '=', '}'] by decide, hsk] at h1
  have hn : Plain n := hg.words (g', n) (by simp)
  have hgap : Spaces g' := (hg.gaps (g', n) (by simp)).1
  have hb : skipbl (spaced ((g', n) :: es) b) = n ++ spaced es b := by
    simp only [spaced, List.flatMap_cons, List.append_assoc]
    rw [Spice.skipbl_blanks g' _ hgap]
    exact next_skipbl hg.tail
  have ho : optDrop ci ['='] (n ++ spaced es b) = n ++ spaced es b := by
    obtain ⟨c, n', hc⟩ := List.exists_cons_of_ne_nil hn.ne
    have : eqc ci c '=' = false := by
      by_contra hx
      simp only [Bool.not_eq_false] at hx
      have := eqc_mark ci c '=' (by decide) hx
      subst this
      exact absurd (hn.noTerm '=' (by rw [hc]; simp)) (by decide)
    rw [hc, List.cons_append]
    simp [optDrop, this]
  rw [(segMatch_lits ci wSection _ _ (n ++ spaced es b)).mpr ⟨w, _, rfl, hs, by simp only [segMatch, hterm, if_true, hb, ho]⟩] at h1
  have hsc : skipcom (n ++ spaced es b) = n ++ spaced es b := skipcom_word [] n (spaced es b) (by intro c hc; cases hc) hn
  rw [mergeTry, h1]
  simp only [hsc]
  rw [word_plain n _ hn (spaced_term hg.tail.tail), skipcom_spaced hg.tail.tail]

/-- what is made of the loop -/
def fin (f : List Char) : Option (List Char × List Char) → Option (List Char × List Char × List Char)
  | none => none
  | some (sec, []) => some (f, sec, [])
  | some (_, c :: r) => some (f, (word (c :: r)).1, (word (c :: r)).2)

theorem loop_asks (ci : Bool) (f : List Char) (sec : List Char) (ws : List (List Char)) (sec' : List Char) (h : Asks ci sec ws sec') :
    ∀ (es : List (List Char × List Char)) (b : List Char), es.map (·.2) = ws → GoodWords es b → ∀ n, (next es b).length < n →
      fin f (mergeLoop ci n sec (next es b).length (next es b)) = some (f, sec', []) := by
  have go : ∀ (es : List (List Char × List Char)) (b : List Char) (n : ℕ) (sec0 sec1 sec' s : List Char), GoodWords es b → (next es b).length < s.length →
      s.length < n + 1 → mergeTry ci sec0 s mergeFlags = some (sec1, next es b) →
      (∀ n, (next es b).length < n → fin f (mergeLoop ci n sec1 (next es b).length (next es b)) = some (f, sec', [])) →
      fin f (mergeLoop ci (n + 1) sec0 s.length s) = some (f, sec', []) := by
    intro es b n sec0 sec1 sec' s hg h1 h2 ht ih
    rw [mergeLoop, ht]
    simp only [next_skipbl hg]
    split
    · rename_i he
      have := ih 1 (by rw [he]; simp)
      rw [he, mergeLoop, mergeTry_nil] at this
      exact this
    · exact ih n (by omega)
  induction h with
  | done =>
    intro es b hes hg n hn
    cases es with
    | cons => cases hes
    | nil =>
      cases n with
      | zero => simp at hn
      | succ n =>
        simp only [next, mergeLoop, mergeTry_nil]
        rfl
  | @flag s w k ws s' hk hs _ ih =>
    intro es b hes hg n hn
    match es, hes, hg, hn with
    | (g, w') :: es, h0, hg, hn =>
      simp only [List.map_cons, List.cons.injEq] at h0
      obtain ⟨rfl, h0⟩ := h0
      cases n with
      | zero => simp at hn
      | succ n => exact go es b n s s s' _ hg.tail (next_len hg) hn (try_flag ci s w' k es b g hg hk (.inl hs)) (ih es b h0 hg.tail)
  | @noFlag s w k ws s' hk hs _ ih =>
    intro es b hes hg n hn
    match es, hes, hg, hn with
    | (g, w') :: es, h0, hg, hn =>
      simp only [List.map_cons, List.cons.injEq] at h0
      obtain ⟨rfl, h0⟩ := h0
      cases n with
      | zero => simp at hn
      | succ n => exact go es b n s s s' _ hg.tail (next_len hg) hn (try_flag ci s w' k es b g hg hk (.inr hs)) (ih es b h0 hg.tail)
  | @sec s w m ws s' hs _ ih =>
    intro es b hes hg n hn
    match es, hes, hg, hn with
    | (g, w') :: (g', m') :: es, h0, hg, hn =>
      simp only [List.map_cons, List.cons.injEq] at h0
      obtain ⟨rfl, rfl, h0⟩ := h0
      cases n with
      | zero => simp at hn
      | succ n =>
        exact go es b n s m' s' _ hg.tail.tail (lt_trans (next_len hg.tail) (next_len hg)) hn (try_section ci s w' m' g g' es b hg hs) (ih es b h0 hg.tail.tail)
  | @bare s m hs =>
    intro es b hes hg n hn
    match es, hes, hg, hn with
    | [(g, m')], h0, hg, hn =>
      simp only [List.map_cons, List.map_nil, List.cons.injEq, and_true] at h0
      subst h0
      have hp := hs.name.plain
      have ht := isTerm_blank b hg.back
      have hsk : skipbl (m' ++ b) = m' ++ b := next_skipbl hg
      have hne : m' ++ b ≠ [] := by simp [hp.ne]
      have h2 : mergeTry ci s (m' ++ b) [] = some (s, m' ++ b) := by
        have h3 : umatch ci (wSection ++ [' ', '{', '=', '}']) (m' ++ b) = .fail := by
          have := (single_ok ci (wSection.map .lit ++ .delim :: [.opt ['=']]) (by decide) (m' ++ b) _
            (first_segs ci wSection [.opt ['=']] (m' ++ b) fun s => ⟨_, rfl⟩)).2
          rw [show segText (wSection.map .lit ++ .delim :: [.opt ['=']]) = wSection ++ [' ', '{', '=', '}'] by decide] at this
          refine this ?_
          rintro ⟨r, v, h1, h2, h3⟩
          rw [← skipbl_front, hsk] at h1
          exact hs.word wSection (by decide) ((first_of_word hp.noTerm (by decide) ht h1 h2 h3) ▸ h2)
        rw [mergeTry, h3]
      have h1 : mergeTry ci s (m' ++ b) mergeFlags = some (s, m' ++ b) := by
        rw [try_past ci s m' b hp ht (fun k hk => hs.word k (by
          simp only [List.mem_cons, List.not_mem_nil, or_false] at hk ⊢
          rcases hk with rfl | rfl | rfl <;> simp)) hs.no, h2]
      have hnx : next [(g, m')] b = m' ++ b := rfl
      rw [hnx] at hn ⊢
      cases n with
      | zero => simp at hn
      | succ n =>
        rw [mergeLoop, h1]
        simp only [hsk, if_neg hne, lt_irrefl, if_false]
        obtain ⟨c, w', hc⟩ := List.exists_cons_of_ne_nil hne
        rw [hc]
        simp only [fin]
        rw [← hc, word_plain m' b hp ht, skipcom_spaces b hg.back]

/-- a file and words behind it -/
theorem mergeArgs_asks (ci : Bool) (f : List Char) (es : List (List Char × List Char)) (b sec : List Char) (hf : Plain f) (hg : GoodWords es b)
    (h : Asks ci [] (es.map (·.2)) sec) : mergeArgs ci (f ++ spaced es b) = some (f, sec, []) := by
  have h1 := loop_asks ci f [] _ sec h es b rfl hg ((next es b).length + 1) (by omega)
  unfold mergeArgs
  rw [word_plain f _ hf (spaced_term hg), skipcom_spaced hg]
  simp only
  rw [← h1]
  generalize mergeLoop ci ((next es b).length + 1) [] (next es b).length (next es b) = m
  rcases m with _ | ⟨x, _ | ⟨c, r⟩⟩ <;> rfl

theorem mergeArgs_file (ci : Bool) (f b : List Char) (hf : Plain f) (hb : Spaces b) : mergeArgs ci (f ++ b) = some (f, [], []) :=
  mergeArgs_asks ci f [] b [] hf ⟨by simp, by simp, hb⟩ .done

/-! ### kinds -/

theorem kindOf_reader :
    (∀ rest, kindOf 37 rest = .sub) ∧ (∀ rest, kindOf 38 rest = .lib rest) ∧ (∀ rest, kindOf 39 rest = .incl rest) ∧ (∀ rest, kindOf 40 rest = .merge rest) := by
  refine ⟨fun rest => ?_, fun rest => ?_, fun rest => ?_, fun rest => ?_⟩ <;> rfl

theorem kindOf_41 (rest : List Char) : kindOf 41 rest = .run rest := rfl
theorem kindOf_42 (rest : List Char) : kindOf 42 rest = .get rest := rfl
theorem kindOf_43 (rest : List Char) : kindOf 43 rest = .build := rfl
theorem kindOf_5 (rest : List Char) : kindOf 5 rest = .file true rest := rfl

theorem others_named : ∀ e ∈ pairs, e.1 ∉ readers → ∀ n ∈ [nSubckt, nLib, nIncl, nMerge, nRun, nGet, nBuild, nFile, nFileRel], named e.2 n = false := by
  decide +kernel

theorem kindOf_other (n : List Char) (i : ℕ) (h : (n, i) ∈ pairs) (hr : n ∉ readers) (rest : List Char) : kindOf i rest = .cmd := by
  have := others_named (n, i) h hr
  simp only at this
  unfold kindOf
  simp only [this nSubckt (by simp), this nLib (by simp), this nIncl (by simp), this nMerge (by simp), this nRun (by simp), this nGet (by simp),
    this nBuild (by simp), this nFile (by simp), this nFileRel (by simp)]
  simp

theorem written_dot (ci : Bool) (v n : List Char) (h : Written ci v ('.' :: n)) (t : List Char) : ∃ r, v ++ t = '.' :: r := by
  obtain ⟨v', rfl⟩ := dot_head ci v n h
  exact ⟨v' ++ t, rfl⟩

theorem skipbl_pre (ci : Bool) (l : Line) (x : Char) (r : List Char) (hl : front l = x :: r) (h1 : x ≠ '>') (h2 : x = '*' → r.head? ≠ some '>') :
    skipbl (pre ci l) = front l := by
  rw [pre_plain ci l x r hl h1 h2, hl]
  exact skipbl_cons r (front_graph hl)

theorem pre_blank (ci : Bool) (l : Line) (h : front l = []) : skipbl (pre ci l) = [] := by
  have hs : skipbl l = [] := by rw [skipbl_front, h]
  have ha : umatch ci antiComment [] = .fail := by rw [Opt.umatch_sound ci _ _ anti_segs.1, anti_segs.2]; rfl
  unfold pre anti
  simp only [hs, List.length_nil, cktPrompts, ha]
  rfl

theorem kind_card (ci : Bool) (dev found : List Char → Bool) (l : Line) (h : Card ci dev l) : kind ci dev found (pre ci l) l = .elem := by
  obtain ⟨x, r, h1, h2, h3, h4⟩ := h
  refine card_line ci dev found l _ ⟨x, r, h1, h2, h3, h4⟩ (skipbl_pre ci l x r h1 ?_ h3)
  rintro rfl
  simp at h2

theorem kind_order (ci : Bool) (dev found : List Char → Bool) (l : Line) (h : Order ci l) (hf : Clear ci found) :
    kind ci dev found (pre ci l) l = .cmd := by
  obtain ⟨v, n, i, rest, hn, hr, ht, ⟨m, rfl, hw, hl⟩ | ⟨hm, hw, hd, hl⟩⟩ := h
  · obtain ⟨r, hr'⟩ := written_dot ci v m hw rest
    rw [dotted_line ci dev found l _ v m rest i hn hw hl ht (skipbl_pre ci l '.' r (by rw [hl, hr']) (by decide) (by simp)) hf]
    exact kindOf_other _ i hn hr _
  · rw [order_line ci dev found l _ v n rest i hn hm hw hd hl ht (skipbl_pre ci l '.' _ hl (by decide) (by simp)) hf]
    exact kindOf_other _ i hn hr _

theorem kind_dotted (ci : Bool) (dev found : List Char → Bool) (l : Line) (n v rest : List Char) (i : ℕ) (hn : ('.' :: n, i) ∈ pairs)
    (hw : Written ci v ('.' :: n)) (hl : front l = v ++ rest) (ht : isTerm rest = true) (hf : Clear ci found) :
    kind ci dev found (pre ci l) l = kindOf i (skipcom rest) := by
  obtain ⟨r, hr'⟩ := written_dot ci v n hw rest
  exact dotted_line ci dev found l _ v n rest i hn hw hl ht (skipbl_pre ci l '.' r (by rw [hl, hr']) (by decide) (by simp)) hf

theorem kind_sub (ci : Bool) (dev found : List Char → Bool) (l : Line) (h : Sub ci l) (hf : Clear ci found) :
    kind ci dev found (pre ci l) l = .sub := by
  obtain ⟨v, n, rest, hn, hw, hl, ht⟩ := h
  simp only [List.mem_cons, List.not_mem_nil, or_false] at hn
  rcases hn with rfl | rfl
  · rw [kind_dotted ci dev found l _ v rest 37 (by decide +kernel) hw hl ht hf, kindOf_reader.1]
  · rw [kind_dotted ci dev found l _ v rest 37 (by decide +kernel) hw hl ht hf, kindOf_reader.1]

theorem says_one (ci : Bool) (dev found : List Char → Bool) (l : Line) (n w : List Char) (i : ℕ) (hn : ('.' :: n, i) ∈ pairs) (hf : Clear ci found)
    (hp : Plain w) (h : Says ci ('.' :: n) l [w]) : ∃ b, Spaces b ∧ kind ci dev found (pre ci l) l = kindOf i (w ++ b) := by
  obtain ⟨v, hw, gs, b, hlen, hg, hb, hl⟩ := h
  match gs, hlen with
  | [g], _ =>
    simp only [List.zip_cons_cons, List.zip_nil_right, List.flatMap_cons, List.flatMap_nil, List.append_nil, List.append_assoc] at hl
    obtain ⟨hg1, hg2⟩ := hg g (by simp)
    refine ⟨b, hb, ?_⟩
    rw [kind_dotted ci dev found l n v _ i hn hw hl (isTerm_spaces g _ hg1 hg2) hf, skipcom_word g w b hg1 hp]

theorem says_two (ci : Bool) (dev found : List Char → Bool) (l : Line) (n w u : List Char) (i : ℕ) (hn : ('.' :: n, i) ∈ pairs) (hf : Clear ci found)
    (hp : Plain w) (h : Says ci ('.' :: n) l [w, u]) :
    ∃ g b, Spaces g ∧ g ≠ [] ∧ Spaces b ∧ kind ci dev found (pre ci l) l = kindOf i (w ++ (g ++ (u ++ b))) := by
  obtain ⟨v, hw, gs, b, hlen, hg, hb, hl⟩ := h
  match gs, hlen with
  | [g, g'], _ =>
    simp only [List.zip_cons_cons, List.zip_nil_right, List.flatMap_cons, List.flatMap_nil, List.append_nil, List.append_assoc] at hl
    obtain ⟨hg1, hg2⟩ := hg g (by simp)
    obtain ⟨hg3, hg4⟩ := hg g' (by simp)
    refine ⟨g', b, hg3, hg4, hb, ?_⟩
    rw [kind_dotted ci dev found l n v _ i hn hw hl (isTerm_spaces g _ hg1 hg2) hf, skipcom_word g w _ hg1 hp]

theorem says_many (ci : Bool) (dev found : List Char → Bool) (l : Line) (n f : List Char) (ws : List (List Char)) (i : ℕ) (hn : ('.' :: n, i) ∈ pairs)
    (hf : Clear ci found) (hp : Plain f) (hw : ∀ w ∈ ws, Plain w) (h : Says ci ('.' :: n) l (f :: ws)) :
    ∃ es b, es.map (·.2) = ws ∧ GoodWords es b ∧ kind ci dev found (pre ci l) l = kindOf i (f ++ spaced es b) := by
  obtain ⟨v, hv, gs, b, hlen, hg, hb, hl⟩ := h
  match gs, hlen with
  | g :: gs, hlen =>
    have hlen' : gs.length = ws.length := by simpa using hlen
    simp only [List.zip_cons_cons, List.flatMap_cons, List.append_assoc] at hl
    obtain ⟨hg1, hg2⟩ := hg g (by simp)
    refine ⟨gs.zip ws, b, List.map_snd_zip (by omega), ⟨fun e he => hg e.1 ?_, fun e he => hw e.2 ?_, hb⟩, ?_⟩
    · exact List.mem_cons_of_mem _ (List.of_mem_zip (a := e.1) (b := e.2) he).1
    · exact (List.of_mem_zip (a := e.1) (b := e.2) he).2
    · rw [kind_dotted ci dev found l n v _ i hn hv hl (isTerm_spaces g _ hg1 hg2) hf, skipcom_word g f _ hg1 hp]
      rfl

/-- ``.`include f`` -/
theorem rel_line (ci : Bool) (dev found : List Char → Bool) (l f : List Char) (h : IncRel ci f l) (hf : Clear ci found) :
    ∃ b, Spaces b ∧ kind ci dev found (pre ci l) l = .file true (f ++ b) := by
  obtain ⟨hp, v, g, b, hv, hg, hg', hb, hl⟩ := h
  refine ⟨b, hb, ?_⟩
  have hno : ¬ Named ci ('.' :: v) := by
    have h3 : ∀ e ∈ pairs, e.1 ≠ ['.', '`', 'i', 'n', 'c', 'l', 'u', 'd', 'e'] := by decide +kernel
    rintro ⟨n, i, hn, hw⟩
    have hv2 : Gnucap.Sim.toLower v = ['`', 'i', 'n', 'c', 'l', 'u', 'd', 'e'] := by rcases hv with rfl | ⟨_, hv⟩ <;> [decide; exact hv]
    have h6 : Gnucap.Sim.toLower ('.' :: v) = n := by
      rcases hw with rfl | ⟨_, h⟩
      · exact pairs_lower _ hn
      · exact h
    refine h3 (n, i) hn ?_
    simp only
    rw [← h6]
    change '.'.toLower :: Gnucap.Sim.toLower v = _
    rw [hv2]; decide
  rw [order_line ci dev found l _ v _ _ 5 (by decide +kernel) (by decide) hv hno hl (isTerm_spaces g _ hg hg')
    (skipbl_pre ci l '.' _ hl (by decide) (by simp)) hf, kindOf_5, skipcom_word g f b hg hp]

theorem kind_same (ci : Bool) (dev found : List Char → Bool) (s s' l : List Char) (h : skipbl s = skipbl s') :
    kind ci dev found s l = kind ci dev found s' l := by unfold kind; rw [h]

theorem bare_pre (ci : Bool) (l : Line) (h : Bare l) : skipbl l = skipbl (pre ci l) := by
  cases hl : front l with
  | nil => rw [pre_blank ci l hl, skipbl_front, hl]
  | cons x r =>
    obtain ⟨h1, h2⟩ := h x r hl
    rw [skipbl_pre ci l x r hl h1 h2, skipbl_front]

/-- the line `<`, a blank, and what follows -/
theorem run_line (ci : Bool) (dev found : List Char → Bool) (l g R : List Char) (hl : front l = '<' :: (g ++ R)) (hg : Spaces g) (hg' : g ≠ [])
    (hc : Clear ci found) : kind ci dev found (pre ci l) l = .run (skipcom (g ++ R)) := by
  have hN : Named ci ['<'] := ⟨['<'], 41, by decide +kernel, .inl rfl⟩
  have hgr : isGraph '<' = true := by decide
  have ht : typeOf ci (front l) = ['<'] := by
    unfold typeOf
    rw [hl, anti_plain ci _ '<' _ (skipbl_cons _ hgr) (by simp)]
    cases ci <;> rfl
  have hs := skipbl_pre ci l '<' _ hl (by decide) (by simp)
  rw [kind_of ci dev found l _ _ hs (by rw [hl]; simp) ht hN hc, pre_plain ci l '<' _ hl (by decide) (by simp)]
  have hw : word ('<' :: (g ++ R)) = (['<'], skipcom (g ++ R)) :=
    word_plain ['<'] _ ⟨by simp, by decide, by decide, by decide, by decide⟩ (isTerm_spaces g _ hg hg')
  unfold parseCommand
  rw [hw, if_pos ((known_iff ci _).mpr hN)]
  have h1 := (mark_runs ci booted [] (g ++ R) (by simp)).2.1
  rw [answer_found ci ['<'] 41 _ (by decide +kernel)] at h1
  rw [List.nil_append] at h1
  rw [kindCmd_runs h1, kindOf_41]

/-- `.inc f` -/
theorem inc_line (ci : Bool) (dev found : List Char → Bool) (l v g f b : List Char) (hv : v = ['i', 'n', 'c'] ∨ (ci = true ∧ Gnucap.Sim.toLower v = ['i', 'n', 'c']))
    (hl : front l = '.' :: (v ++ (g ++ (f ++ b)))) (hg : Spaces g) (hg' : g ≠ []) (hf : Plain f) (hdev : dev v = false) (hfound : found v = false) :
    kind ci dev found (pre ci l) l = .file false (f ++ b) := by
  have hsh : Short ci 3 ['i', 'n', 'c', 'l', 'u', 'd', 'e'] v := by
    rcases hv with rfl | ⟨rfl, hv⟩
    · cases ci <;> decide
    · rw [← short_lower, hv]; decide
  have hne : v ≠ [] := by rcases hv with rfl | ⟨_, hv⟩ <;> [simp; (rintro rfl; cases hv)]
  have hno : ∀ x : List Char, x = v ∨ x = '.' :: v → ¬ Named ci x := by
    have h3 : ∀ e ∈ pairs, e.1 ≠ ['i', 'n', 'c'] ∧ e.1 ≠ ['.', 'i', 'n', 'c'] := by decide +kernel
    rintro x hx ⟨n, i, hn, hw⟩
    have hv2 : Gnucap.Sim.toLower v = ['i', 'n', 'c'] := by rcases hv with rfl | ⟨_, hv⟩ <;> [decide; exact hv]
    have h4 := h3 (n, i) hn
    have h5 := pairs_lower (n, i) hn
    have h6 : Gnucap.Sim.toLower x = n := by
      rcases hw with rfl | ⟨_, h⟩
      · exact h5
      · exact h
    rcases hx with rfl | rfl
    · exact h4.1 (by rw [← h6, hv2])
    · refine h4.2 ?_
      simp only
      rw [← h6]
      change '.'.toLower :: Gnucap.Sim.toLower v = _
      rw [hv2]; decide
  have hch : ∀ d ∈ v, NameChar d := fun d hd => .inl (short_letters ci v _ hsh.2.1 hsh.2.2 (by decide) d hd)
  have hlead := letters_lead ci v hne hch
  have hgr : isGraph '.' = true := by decide
  have hp : Plain ('.' :: v) := by
    refine ⟨by simp, ?_, ?_, by simp, by simp⟩
    · intro c hc
      rcases List.mem_cons.mp hc with rfl | hc
      · exact hgr
      · exact hlead.plain.graph c hc
    · intro c hc
      rcases List.mem_cons.mp hc with rfl | hc
      · decide
      · exact hlead.plain.noTerm c hc
  have ht := isTerm_spaces g (f ++ b) hg hg'
  have hword : word ('.' :: (v ++ (g ++ (f ++ b)))) = ('.' :: v, skipcom (g ++ (f ++ b))) := word_plain _ _ hp ht
  have hk : ∀ x : List Char, x = v ∨ x = '.' :: v → known ci x = false := by
    intro x hx
    by_contra h; exact hno x hx ((known_iff ci _).mp (by simpa using h))
  have hty : typeOf ci (front l) = v := by
    unfold typeOf
    rw [hl, anti_plain ci _ '.' _ (skipbl_cons _ hgr) (by simp)]
    simp only [hword, hk _ (.inr rfl)]
    rfl
  have hs := skipbl_pre ci l '.' _ hl (by decide) (by simp)
  have hshort : knownShort ci v = true := by
    unfold knownShort
    have hfind : shorts.find? (fun e => hits ci e.1 v) =
        some (['i', 'n', 'c', '{', 'l', 'u', 'd', 'e', '}', ' '], ['i', 'n', 'c', 'l', 'u', 'd', 'e']) := by
      have hm : ∀ e ∈ abbrevs, umatch ci e.pattern v = if Short ci e.must e.full v then .ok [] else .fail := by
        intro e he
        have hsk : skipbl v = v ++ [] := by
          obtain ⟨d, v', rfl⟩ := List.exists_cons_of_ne_nil hne
          rw [List.append_nil]
          exact skipbl_cons _ (hlead.plain.graph d (by simp))
        have := umatch_short ci e he v v [] hsk hlead.plain rfl
        rw [this]; rfl
      have hmiss : ∀ e ∈ abbrevs, e ≠ ⟨3, ['i', 'n', 'c', 'l', 'u', 'd', 'e'], ['i', 'n', 'c', 'l', 'u', 'd', 'e']⟩ → umatch ci e.pattern v = .fail := by
        intro e he hx
        rw [hm e he, if_neg]
        intro h
        exact hx (short_unique ci v e _ he (by decide) h hsh)
      have hhit := hm ⟨3, ['i', 'n', 'c', 'l', 'u', 'd', 'e'], ['i', 'n', 'c', 'l', 'u', 'd', 'e']⟩ (by decide)
      rw [if_pos hsh] at hhit
      have hs5 : shorts = (abbrevs.take 4).map (fun e => (e.pattern, e.name)) ++
        ((['i', 'n', 'c', '{', 'l', 'u', 'd', 'e', '}', ' '], ['i', 'n', 'c', 'l', 'u', 'd', 'e']) :: shorts.drop 5) := by decide +kernel
      rw [hs5, List.find?_append, List.find?_eq_none.mpr]
      · rw [Option.none_or, List.find?_cons_of_pos]
        rw [show (['i', 'n', 'c', '{', 'l', 'u', 'd', 'e', '}', ' '] : List Char) =
          Abbrev.pattern ⟨3, ['i', 'n', 'c', 'l', 'u', 'd', 'e'], ['i', 'n', 'c', 'l', 'u', 'd', 'e']⟩ by decide]
        simp only [hits, hhit]
      · intro p hp
        obtain ⟨e, he, rfl⟩ := List.mem_map.mp hp
        simp only [hits]
        rw [hmiss e (List.mem_of_mem_take he)]
        · simp
        · rintro rfl
          revert he
          decide
    rw [hfind]
    exact (known_iff ci _).mpr ⟨_, 4, by decide +kernel, .inl rfl⟩
  have hkind : kind ci dev found (pre ci l) l = parseCommand ci (pre ci l) := by
    unfold kind isDot
    rw [hs, if_neg (by rw [hl]; simp), hty]
    simp [hdev, hfound, hshort]
  rw [hkind, pre_plain ci l '.' _ hl (by decide) (by simp)]
  unfold parseCommand
  rw [hword, hk _ (.inr rfl)]
  have h1 := short_runs ci booted ⟨[], none, []⟩ (by simp [Front.ok]) ⟨3, ['i', 'n', 'c', 'l', 'u', 'd', 'e'], ['i', 'n', 'c', 'l', 'u', 'd', 'e']⟩ (by decide) v (g ++ (f ++ b)) hsh ht
  rw [answer_found ci _ 4 _ (by decide +kernel), skipcom_word g f b hg hf] at h1
  exact kindCmd_runs h1

section
variable {σ : Type}

/-! ### steps -/

theorem runs_step (c : Cfg σ) (t : Task) (st : State σ) (o : Out σ) (f : Task → State σ → Option (Out σ))
    (hf : ∀ n, ∃ m, n ≤ m ∧ step c (run c m) t st = some o) : Runs c t st o := by
  obtain ⟨m, -, h⟩ := hf 0
  exact ⟨m + 1, h⟩

theorem body_nil (c : Cfg σ) (o : Option Scope) (L : Scope) (key : List Char) (b : Bool) (st : State σ) : Runs c (.body o L key b []) st (.ok, [], st) :=
  ⟨1, rfl⟩

theorem body_end (c : Cfg σ) (o : Option Scope) (L : Scope) (key : List Char) (e : Line) (t : List Line) (st : State σ) (x : List Char)
    (h : umatch c.ci key e = .ok x) : Runs c (.body o L key false (e :: t)) st (.ok, t, st) :=
  ⟨1, by simp only [run, step, h]; rfl⟩

theorem not_blank (bl : Bool) (l : Line) (hb : bl = true → front l ≠ []) : (bl && (skipbl l).isEmpty) = false := by
  cases bl with
  | false => rfl
  | true =>
    rw [skipbl_front, Bool.true_and]
    simpa using hb rfl

theorem body_seq (c : Cfg σ) (o : Option Scope) (L : Scope) (key : List Char) (bl : Bool) (l : Line) (t t' : List Line) (st st1 : State σ) (out : Out σ)
    (h : umatch c.ci key l = .fail) (hb : bl = true → front l ≠ []) (h1 : Runs c (.line o L (pre c.ci l) l t) st (.ok, t', st1))
    (h2 : Runs c (.body o L key bl t') st1 out) : Runs c (.body o L key bl (l :: t)) st out := by
  obtain ⟨n, hn⟩ := h1
  obtain ⟨m, hm⟩ := h2
  refine ⟨max n m + 1, ?_⟩
  simp only [run, step, h, not_blank bl l hb]
  have e1 := run_le c n (max n m) (le_max_left _ _) _ _ _ hn
  have e2 := run_le c m (max n m) (le_max_right _ _) _ _ _ hm
  simp [e1, e2]

theorem body_stop (c : Cfg σ) (o : Option Scope) (L : Scope) (key : List Char) (bl : Bool) (l : Line) (t left : List Line) (st st1 : State σ) (s : Stat)
    (h : umatch c.ci key l = .fail) (hb : bl = true → front l ≠ []) (h1 : Runs c (.line o L (pre c.ci l) l t) st (s, left, st1)) (hs : s ≠ .ok)
    (hs' : s ≠ .eof) : Runs c (.body o L key bl (l :: t)) st (s, left, st1) := by
  obtain ⟨n, hn⟩ := h1
  refine ⟨n + 1, ?_⟩
  simp only [run, step, h, not_blank bl l hb]
  cases s <;> first | exact absurd rfl hs | exact absurd rfl hs' | simp [hn]

/-- a line read without looking for prompts -/
theorem line_bare (c : Cfg σ) (o : Option Scope) (L : Scope) (l : Line) (t : List Line) (st : State σ) (out : Out σ) (hb : Bare l)
    (h : Runs c (.line o L (pre c.ci l) l t) st out) : Runs c (.line o L l l t) st out := by
  obtain ⟨n, hn⟩ := h
  refine ⟨n, ?_⟩
  cases n with
  | zero => cases hn
  | succ n =>
    simp only [run, step] at hn ⊢
    rw [kind_same _ _ _ l (pre c.ci l) l (bare_pre c.ci l hb)]
    exact hn

theorem top_seq (c : Cfg σ) (L : Scope) (l : Line) (t t' : List Line) (st st1 : State σ) (out : Out σ)
    (h1 : Runs c (.line none L l l t) st (.ok, t', st1)) (h2 : Runs c (.top L t') st1 out) : Runs c (.top L (l :: t)) st out := by
  obtain ⟨n, hn⟩ := h1
  obtain ⟨m, hm⟩ := h2
  refine ⟨max n m + 1, ?_⟩
  have e1 := run_le c n (max n m) (le_max_left _ _) _ _ _ hn
  have e2 := run_le c m (max n m) (le_max_right _ _) _ _ _ hm
  simp only [run, step, e1, Option.bind_some, e2]

theorem top_stop (c : Cfg σ) (L : Scope) (l : Line) (t left : List Line) (st st1 : State σ) (s : Stat)
    (h1 : Runs c (.line none L l l t) st (s, left, st1)) (hs : s ≠ .ok) (hs' : s ≠ .eof) : Runs c (.top L (l :: t)) st (s, left, st1) := by
  obtain ⟨n, hn⟩ := h1
  refine ⟨n + 1, ?_⟩
  simp only [run, step, hn, Option.bind_some]
  cases s <;> first | exact absurd rfl hs | exact absurd rfl hs' | rfl

/-- the lines mean nothing outside: no card is named as a command, no command reads beyond the end -/
structure Sane (c : Cfg σ) : Prop where
  names : ∀ o u, Clear c.ci (fun n => c.card o n u)
  stays : ∀ m e x, (c.act m e x).1 ≠ .eof

/-- nothing that is inside ends it -/
def IsKey (c : Cfg σ) (key : List Char) : Prop := ∀ l, Inside c.ci l → umatch c.ci key l = .fail

theorem isKey_end (c : Cfg σ) : IsKey c keyEnd := fun l h => (end_key c.ci l).2 h.fin
theorem isKey_ends (c : Cfg σ) : IsKey c keyEnds := fun l h => (ends_key c.ci l).2 h.ends
theorem isKey_endl (c : Cfg σ) (sec : List Char) (hs : ∀ x ∈ sec, special x = false) : IsKey c (keyEndl sec) := fun l h => (endl_key c.ci sec l hs).2 h.endl

theorem isKey_dot (c : Cfg σ) : IsKey c keyDot := fun l h => (key_word c.ci ['.'] l (by decide)).2 h.dot

/-- what the relation says of the program -/
def Holds (c : Cfg σ) (o : Option Scope) (L : Scope) (st : State σ) (s : Stat) (st' : State σ) : Src → Prop
  | .lines ls => s ≠ .eof ∧
    (∀ key bl, IsKey c key → (bl = true → ∀ l ∈ ls, front l ≠ []) →
      (s = .ok → ∀ rest out, Runs c (.body o L key bl rest) st' out → Runs c (.body o L key bl (ls ++ rest)) st out) ∧
      (s ≠ .ok → ∀ rest, ∃ left, Runs c (.body o L key bl (ls ++ rest)) st (s, left, st'))) ∧
    (o = none → (∀ l ∈ ls, Bare l) →
      (s = .ok → ∀ rest out, Runs c (.top L rest) st' out → Runs c (.top L (ls ++ rest)) st out) ∧
      (s ≠ .ok → ∀ rest, ∃ left, Runs c (.top L (ls ++ rest)) st (s, left, st')))
  | .item b => s ≠ .eof ∧ ∀ h t, b = h :: t →
    (s = .ok → ∀ rest, Runs c (.line o L (pre c.ci h) h (t ++ rest)) st (.ok, rest, st')) ∧
    (s ≠ .ok → ∀ rest, ∃ left, Runs c (.line o L (pre c.ci h) h (t ++ rest)) st (s, left, st'))
  | .each bs => s ≠ .eof ∧ (o = none → ∀ sec fl, (∀ x ∈ sec, special x = false) → Parts c.ci sec fl bs →
    ∃ left, Runs c (.sections L sec fl) st (s, left, st'))
  | .text sec fl => s ≠ .eof ∧ (o = none → ∃ left, Runs c (if sec = [] then .body none L keyEnd false fl else .sections L sec fl) st (s, left, st'))
  | .file title f sec => s ≠ .eof ∧ (o = none → ∀ rest, mergeArgs c.ci rest = some (f, sec, []) → ∃ left, Runs c (.merge L title rest) st (s, left, st'))

theorem holds_body {c : Cfg σ} {o : Option Scope} {L : Scope} {st st' : State σ} {s : Stat} {ls : List Line} (h : Holds c o L st s st' (.lines ls))
    (key : List Char) (hk : IsKey c key) :
    (s = .ok → ∀ rest out, Runs c (.body o L key false rest) st' out → Runs c (.body o L key false (ls ++ rest)) st out) ∧
    (s ≠ .ok → ∀ rest, ∃ left, Runs c (.body o L key false (ls ++ rest)) st (s, left, st')) := h.2.1 key false hk (by simp)

/-- a line by itself -/
theorem holds_one (c : Cfg σ) (o : Option Scope) (L : Scope) (st : State σ) (s : Stat) (st' : State σ) (l : Line) (hs : s ≠ .eof)
    (h : ∀ rest, Runs c (.line o L (pre c.ci l) l rest) st (s, rest, st')) : Holds c o L st s st' (.item [l]) := by
  refine ⟨hs, ?_⟩
  rintro h' t ⟨⟩
  refine ⟨?_, ?_⟩
  · rintro rfl rest
    exact h rest
  · intro _ rest
    exact ⟨rest, h rest⟩

theorem emit_stays (c : Cfg σ) (hc : Sane c) (e : Event) (st : State σ) : (emit c e st).1 ≠ .eof := hc.stays _ _ _

theorem text_all (c : Cfg σ) (sc : Scope) (body tail : List Line) (st st1 : State σ) (s : Stat)
    (ht : tail = [] ∨ ∃ e t, tail = e :: t ∧ First c.ci dEnd e) (h : Holds c none sc st s st1 (.lines body)) :
    ∃ left, Runs c (.body none sc keyEnd false (body ++ tail)) st (s, left, st1) := by
  obtain ⟨h1, h2⟩ := holds_body h keyEnd (isKey_end c)
  by_cases hs : s = .ok
  · subst hs
    rcases ht with rfl | ⟨e, t, rfl, he⟩
    · exact ⟨[], h1 rfl [] _ (body_nil c none sc keyEnd false st1)⟩
    · obtain ⟨x, hx⟩ := (end_key c.ci e).1 he
      exact ⟨t, h1 rfl _ _ (body_end c none sc keyEnd e t st1 x hx)⟩
  · exact h2 hs tail

theorem marks_len (T : List Char) : ∀ ms : List (List Char), ms.length ≤ (ms.flatMap (fun m => '<' :: m) ++ T).length
  | [] => by simp
  | m :: ms => by
    have := marks_len T ms
    simp only [List.flatMap_cons, List.length_append, List.length_cons] at this ⊢
    omega

theorem andThen_ok {α : Type} (st : State σ) (bad : Stat → State σ → α) (k : State σ → α) : andThen (.ok, st) bad k = k st := rfl

theorem andThen_bad {α : Type} (s : Stat) (hs : s ≠ .ok) (st : State σ) (bad : Stat → State σ → α) (k : State σ → α) : andThen (s, st) bad k = bad s st := by
  cases s <;> first | exact absurd rfl hs | rfl

/-- the marks behind the first -/
theorem clears_marks (c : Cfg σ) (sc : Scope) (T : List Char) (x : Char) (T' : List Char) (hT : T = x :: T') (hx : isGraph x = true) (hx' : x ≠ '<')
    (ms : List (List Char)) (st st1 : State σ) (s : Stat) (h : Clears c sc ms.length st s st1) :
    (∀ m ∈ ms, Spaces m) → ∀ n, ms.length ≤ n → ∃ r, clears c sc n (ms.flatMap (fun m => '<' :: m) ++ T) st = (s, r, st1) ∧ (s = .ok → r = T) := by
  generalize hk : ms.length = k at h
  induction h generalizing ms with
  | zero =>
    rintro - n -
    have : ms = [] := List.length_eq_zero_iff.mp hk
    subst this
    refine ⟨T, ?_, fun _ => rfl⟩
    rw [List.flatMap_nil, List.nil_append]
    subst hT
    unfold clears
    split
    · rename_i heq; simp only [List.cons.injEq] at heq; exact absurd heq.1 hx'
    · rfl
  | @succ k st st1 s st2 he _ ih =>
    intro hm n hn
    match ms, hk, n with
    | m :: ms, hk, n + 1 =>
      have hk' : ms.length = k := by simpa using hk
      obtain ⟨r, hr, hr'⟩ := ih ms hk' (fun m hm' => hm m (by simp [hm'])) n (by omega)
      have hsk : skipbl (m ++ (ms.flatMap (fun m => '<' :: m) ++ T)) = ms.flatMap (fun m => '<' :: m) ++ T := by
        rw [Spice.skipbl_blanks m _ (hm m (by simp))]
        cases ms with
        | nil => rw [List.flatMap_nil, List.nil_append, hT]; exact skipbl_cons _ hx
        | cons m' ms => rw [List.flatMap_cons]; exact skipbl_cons _ (by decide)
      refine ⟨r, ?_, hr'⟩
      simp only [List.flatMap_cons, List.cons_append, List.append_assoc]
      rw [clears, he]
      simp only [andThen, hsk]
      exact hr
  | @stop k st s st1 he hne =>
    intro hm n hn
    match ms, hk, n with
    | m :: ms, hk, n + 1 =>
      refine ⟨m ++ (ms.flatMap (fun m => '<' :: m) ++ T), ?_, fun h => absurd h hne⟩
      simp only [List.flatMap_cons, List.cons_append, List.append_assoc]
      rw [clears, he]
      cases s <;> first | exact absurd rfl hne | rfl

theorem clears_stays (c : Cfg σ) (hc : ∀ m e x, (c.act m e x).1 ≠ .eof) (sc : Scope) (n : ℕ) (st st1 : State σ) (s : Stat) (h : Clears c sc n st s st1) : s ≠ .eof := by
  induction h with
  | zero => simp
  | succ _ _ ih => exact ih
  | @stop n st s st1 he _ =>
    have : (emit c (.clear sc) st).1 ≠ .eof := hc _ _ _
    rw [he] at this
    exact this

theorem clears_mode (c : Cfg σ) (sc : Scope) (n : ℕ) (st st1 : State σ) (s : Stat) (h : Clears c sc n st s st1) : st1.mode = st.mode := by
  have he : ∀ st : State σ, (emit c (.clear sc) st).2.mode = st.mode := fun st => rfl
  induction h with
  | zero => rfl
  | @succ n st st1 s st2 h _ ih =>
    have := he st
    rw [h] at this
    exact ih.trans this
  | @stop n st s st1 h _ =>
    have := he st
    rw [h] at this
    exact this

/-- the line `< < f ..` -/
theorem script_line (ci : Bool) (dev found : List Char → Bool) (l : Line) (ms : List (List Char)) (f sec : List Char) (h : Script ci ms f sec l)
    (hc : Clear ci found) : ∃ T x T', kind ci dev found (pre ci l) l = .run (ms.flatMap (fun m => '<' :: m) ++ T) ∧ T = x :: T' ∧ isGraph x = true ∧ x ≠ '<' ∧
      (∀ m ∈ ms, Spaces m) ∧ mergeArgs ci T = some (f, sec, []) := by
  obtain ⟨hf, hf', -, ws, hws, hask, g, hg, hg', hms, gs, b, hlen, hgs, hb, hl⟩ := h
  obtain ⟨x, f', rfl⟩ := List.exists_cons_of_ne_nil hf.ne
  have hgood : GoodWords (gs.zip ws) b := ⟨fun e he => hgs e.1 (List.of_mem_zip (a := e.1) (b := e.2) he).1, fun e he => hws e.2 (List.of_mem_zip (a := e.1) (b := e.2) he).2, hb⟩
  have hmap : (gs.zip ws).map (·.2) = ws := List.map_snd_zip (by omega)
  have hx := hf.graph x (by simp)
  refine ⟨(x :: f') ++ spaced (gs.zip ws) b, x, f' ++ spaced (gs.zip ws) b, ?_, rfl, hx, by simpa using hf', hms, mergeArgs_asks ci _ _ b sec hf hgood (by rw [hmap]; exact hask)⟩
  rw [run_line ci dev found l g _ hl hg hg' hc]
  congr 1
  cases ms with
  | nil =>
    rw [List.flatMap_nil, List.nil_append]
    exact skipcom_word g (x :: f') _ hg hf
  | cons m ms =>
    rw [List.flatMap_cons]
    exact head_skipcom (by rw [Spice.skipbl_blanks g _ hg]; exact skipbl_cons _ (by decide)) (by decide)

/-- `.lib f` and words: something follows the file -/
theorem lib_more (ci : Bool) (f : List Char) (es : List (List Char × List Char)) (b : List Char) (hf : Plain f) (hg : GoodWords es b) (hne : es ≠ []) :
    (word (word (f ++ spaced es b)).2).1 ≠ [] := by
  rw [word_plain f _ hf (spaced_term hg)]
  simp only
  rw [skipcom_spaced hg]
  cases es with
  | nil => exact absurd rfl hne
  | cons e es =>
    have hp := hg.words e (by simp)
    simp only [next]
    rw [word_plain e.2 _ hp (spaced_term hg.tail)]
    exact hp.ne

theorem sections_runs (c : Cfg σ) (sec : List Char) (hs : ∀ x ∈ sec, special x = false) (L : Scope) (fl : List Line) (st : State σ) (b : List Line)
    (bs : List (List Line)) (hp : Parts c.ci sec fl (b :: bs)) : ∃ t rest,
      (∀ st st1 out, Runs c (.body none L (keyEndl sec) false (b ++ rest)) st (.ok, t, st1) → Runs c (.sections L sec t) st1 out →
        Runs c (.sections L sec fl) st out) ∧
      (∀ st st1 s left, s ≠ .ok → Runs c (.body none L (keyEndl sec) false (b ++ rest)) st (s, left, st1) → Runs c (.sections L sec fl) st (s, left, st1)) ∧
      Parts c.ci sec t bs ∧ ((rest = [] ∧ t = []) ∨ ∃ e, rest = e :: t ∧ First c.ci dEndl e) := by
  generalize hbb : b :: bs = bb at hp
  induction hp with
  | nil => cases hbb
  | @other l t bs' hno _ ih =>
    obtain ⟨t', rest, h1, h2, h3, h4⟩ := ih hbb
    have hf := (lib_key c.ci sec l hs).2 hno
    have go : ∀ st out, Runs c (.sections L sec t) st out → Runs c (.sections L sec (l :: t)) st out := by
      rintro st out ⟨n, hn⟩
      exact ⟨n + 1, by simp only [run, step, hf, hn]⟩
    exact ⟨t', rest, fun st st1 out ha hb => go _ _ (h1 st st1 out ha hb), fun st st1 s left hne ha => go _ _ (h2 st st1 s left hne ha), h3, h4⟩
  | @part h body e t bs' hop hend hp _ =>
    cases hbb
    obtain ⟨x, hx⟩ := (lib_key c.ci sec h hs).1 hop
    refine ⟨t, e :: t, ?_, ?_, hp, .inr ⟨e, rfl, hend⟩⟩
    · rintro st st1 out ⟨n, hn⟩ ⟨m, hm⟩
      refine ⟨max n m + 1, ?_⟩
      have e1 := run_le c n (max n m) (le_max_left _ _) _ _ _ hn
      have e2 := run_le c m (max n m) (le_max_right _ _) _ _ _ hm
      simp only [run, step, hx, e1, e2, Option.bind_some]
    · rintro st st1 s left hne ⟨n, hn⟩
      refine ⟨n + 1, ?_⟩
      simp only [run, step, hx, hn, Option.bind_some]
      cases s <;> first | exact absurd rfl hne | rfl
  | @last h body hop =>
    cases hbb
    obtain ⟨x, hx⟩ := (lib_key c.ci sec h hs).1 hop
    refine ⟨[], [], ?_, ?_, .nil, .inl ⟨rfl, rfl⟩⟩
    · rintro st st1 out ⟨n, hn⟩ ⟨m, hm⟩
      refine ⟨max n m + 1, ?_⟩
      have e1 := run_le c n (max n m) (le_max_left _ _) _ _ _ hn
      have e2 := run_le c m (max n m) (le_max_right _ _) _ _ _ hm
      rw [List.append_nil] at e1
      simp only [run, step, hx, e1, e2, Option.bind_some]
    · rintro st st1 s left hne ⟨n, hn⟩
      rw [List.append_nil] at hn
      refine ⟨n + 1, ?_⟩
      simp only [run, step, hx, hn, Option.bind_some]
      cases s <;> first | exact absurd rfl hne | rfl

end

section
variable {σ : Type}

/-! ## C94 -/

theorem skipLib_to (ci : Bool) (key : List Char) (st : State σ) (e : Line) (t : List Line) (x : List Char) (he : umatch ci key e = .ok x) :
    ∀ body : List Line, (∀ l ∈ body, umatch ci key l = .fail) → skipLib ci key st (body ++ e :: t) = (.ok, t, st)
  | [], _ => by simp only [List.nil_append, skipLib, he]
  | l :: body, h => by
    simp only [List.cons_append, skipLib, h l (by simp)]
    exact skipLib_to ci key st e t x he body fun l hl => h l (by simp [hl])

/-- **C94, reading is as meant.** Whatever lines mean: instances, commands, subcircuits, files, sections, nested to any depth, with every
outcome of every instance and command, by every command that reads lines: reading them does that, in that order, and leaves the lines behind them; an exception passes out. -/
theorem means_runs (c : Cfg σ) (hc : Sane c) (o : Option Scope) (L : Scope) (src : Src) (st : State σ) (s : Stat) (st' : State σ)
    (h : Means c o L src st s st') : Holds c o L st s st' src := by
  induction h with
  | done => exact ⟨by simp, fun key bl _ _ => ⟨fun _ rest out h => h, fun h => absurd rfl h⟩, fun _ _ => ⟨fun _ rest out h => h, fun h => absurd rfl h⟩⟩
  | @seq o L h b ls st st1 s st2 hin _ _ ih1 ih2 =>
    have hl := (ih1.2 h b rfl).1 rfl
    have e : ∀ rest, (h :: (b ++ ls)) ++ rest = h :: (b ++ (ls ++ rest)) := fun rest => by simp
    refine ⟨ih2.1, fun key bl hk hbl => ?_, fun ho hbare => ?_⟩
    · obtain ⟨h1, h2⟩ := ih2.2.1 key bl hk fun hb l hl => hbl hb l (by simp [hl])
      have hb : bl = true → front h ≠ [] := fun hb => hbl hb h (by simp)
      refine ⟨fun hs rest out hr => ?_, fun hs rest => ?_⟩
      · rw [e]
        exact body_seq c o L key bl h _ _ st st1 out (hk h hin) hb (hl _) (h1 hs rest out hr)
      · obtain ⟨left, hr⟩ := h2 hs rest
        exact ⟨left, by rw [e]; exact body_seq c o L key bl h _ _ st st1 _ (hk h hin) hb (hl _) hr⟩
    · subst ho
      obtain ⟨h1, h2⟩ := ih2.2.2 rfl fun l hl => hbare l (by simp [hl])
      have hb : Bare h := hbare h (by simp)
      refine ⟨fun hs rest out hr => ?_, fun hs rest => ?_⟩
      · rw [e]
        exact top_seq c L h _ _ st st1 out (line_bare c none L h _ st _ hb (hl _)) (h1 hs rest out hr)
      · obtain ⟨left, hr⟩ := h2 hs rest
        exact ⟨left, by rw [e]; exact top_seq c L h _ _ st st1 _ (line_bare c none L h _ st _ hb (hl _)) hr⟩
  | @stop o L h b ls st s st1 hin _ hne ih =>
    have e : ∀ rest, (h :: (b ++ ls)) ++ rest = h :: (b ++ (ls ++ rest)) := fun rest => by simp
    refine ⟨ih.1, fun key bl hk hbl => ⟨fun hs => absurd hs hne, fun _ rest => ?_⟩, fun ho hbare => ⟨fun hs => absurd hs hne, fun _ rest => ?_⟩⟩
    · obtain ⟨left, hr⟩ := (ih.2 h b rfl).2 hne (ls ++ rest)
      exact ⟨left, by rw [e]; exact body_stop c o L key bl h _ left st st1 s (hk h hin) (fun hb => hbl hb h (by simp)) hr hne ih.1⟩
    · subst ho
      obtain ⟨left, hr⟩ := (ih.2 h b rfl).2 hne (ls ++ rest)
      exact ⟨left, by rw [e]; exact top_stop c L h _ left st st1 s (line_bare c none L h _ st _ (hbare h (by simp)) hr) hne ih.1⟩
  | @blank o L l st hb =>
    refine holds_one c o L st .ok st l (by simp) fun rest => ⟨1, ?_⟩
    simp only [run, step, kind_blank _ _ _ _ l (pre_blank c.ci l hb)]
  | @card o L l st hcard =>
    refine holds_one c o L st _ _ l (emit_stays c hc _ _) fun rest => ⟨1, ?_⟩
    simp only [run, step, kind_card _ _ _ l hcard]
  | @order o L l st hord =>
    refine holds_one c o L st _ _ l (emit_stays c hc _ _) fun rest => ⟨1, ?_⟩
    simp only [run, step, kind_order _ _ _ l hord (hc.names o st.user)]
  | @sub o L h body e st st1 st2 hsub hcl hop _ ih =>
    have hk := kind_sub c.ci c.dev (fun n => c.card o n st.user) h hsub (hc.names o st.user)
    obtain ⟨x, hx⟩ := (ends_key c.ci e).1 hcl
    have hb : ∀ rest, Runs c (.body (some (h :: o.getD [])) (h :: o.getD []) keyEnds false (body ++ e :: rest)) st1 (.ok, rest, st2) :=
      fun rest => (holds_body ih keyEnds (isKey_ends c)).1 rfl _ _ (body_end c _ _ keyEnds e rest st2 x hx)
    have hr : ∀ rest, Runs c (.line o L (pre c.ci h) h ((body ++ [e]) ++ rest)) st
        ((emit c (.closes (o.getD []) h) st2).1, rest, (emit c (.closes (o.getD []) h) st2).2) := by
      intro rest
      obtain ⟨n, hn⟩ := hb rest
      refine ⟨n + 1, ?_⟩
      simp only [run, step, hk, hop, andThen, List.append_assoc, List.singleton_append, hn, Option.bind_some]
    refine ⟨emit_stays c hc _ _, ?_⟩
    rintro h' t ⟨⟩
    exact ⟨fun hs rest => by rw [← hs]; exact hr rest, fun _ rest => ⟨rest, hr rest⟩⟩
  | @subHead o L h b st s st1 hsub hop hne =>
    have hk := kind_sub c.ci c.dev (fun n => c.card o n st.user) h hsub (hc.names o st.user)
    refine ⟨by have := emit_stays c hc (.opens h) st; rw [hop] at this; exact this, ?_⟩
    rintro h' t ⟨⟩
    refine ⟨fun hs => absurd hs hne, fun _ rest => ⟨b ++ rest, 1, ?_⟩⟩
    simp only [run, step, hk, hop, andThen]
  | @subBody o L h body b st st1 s st2 hsub hop _ hne ih =>
    have hk := kind_sub c.ci c.dev (fun n => c.card o n st.user) h hsub (hc.names o st.user)
    refine ⟨ih.1, ?_⟩
    rintro h' t ⟨⟩
    refine ⟨fun hs => absurd hs hne, fun _ rest => ?_⟩
    obtain ⟨left, n, hn⟩ := (holds_body ih keyEnds (isKey_ends c)).2 hne (b ++ rest)
    refine ⟨left, n + 1, ?_⟩
    simp only [run, step, hk, hop, andThen, List.append_assoc, hn, Option.bind_some]
    cases s <;> first | exact absurd rfl hne | rfl
  | @skip o L h body e sec st hdef hbody hend =>
    obtain ⟨b, hb, hk⟩ := says_one c.ci c.dev (fun n => c.card o n st.user) h ['l', 'i', 'b'] sec 38 (by decide +kernel) (hc.names o st.user) hdef.1.plain hdef.2
    have hw : word (sec ++ b) = (sec, []) := by rw [word_plain sec b hdef.1.plain (isTerm_blank b hb), skipcom_spaces b hb]
    have hw2 : (word []).1 = [] := by decide
    obtain ⟨x, hx⟩ := (endl_key c.ci sec e hdef.1.special).1 hend
    refine ⟨by simp, ?_⟩
    rintro h' t ⟨⟩
    refine ⟨fun _ rest => ⟨1, ?_⟩, fun hs => absurd rfl hs⟩
    simp only [run, step, hk, kindOf_reader.2.1, hw, hw2, ne_eq, not_true_eq_false, if_false, List.append_assoc, List.singleton_append]
    rw [skipLib_to c.ci _ st e rest x hx body fun l hl => (endl_key c.ci sec l hdef.1.special).2 (hbody l hl)]
  | @incl o L l f sec st s st1 hi _ ih =>
    rcases hi with ⟨hf, -, ws, hws, hask, -, hsay⟩ | ⟨hf, -, ws, hws, hask, hne, hsay⟩
    · obtain ⟨es, b, rfl, hg, hk⟩ := says_many c.ci c.dev (fun n => c.card o n st.user) l _ f ws 39 (by decide +kernel) (hc.names o st.user) hf hws hsay
      obtain ⟨left, n, hn⟩ := ih.2 rfl _ (mergeArgs_asks c.ci f es b sec hf hg hask)
      refine holds_one c o L st s st1 l ih.1 fun rest => ⟨n + 1, ?_⟩
      simp only [run, step, hk, kindOf_reader.2.2.1, hn, Option.map_some]
    · obtain ⟨es, b, rfl, hg, hk⟩ := says_many c.ci c.dev (fun n => c.card o n st.user) l ['l', 'i', 'b'] f ws 38 (by decide +kernel) (hc.names o st.user) hf hws hsay
      obtain ⟨left, n, hn⟩ := ih.2 rfl _ (mergeArgs_asks c.ci f es b sec hf hg hask)
      refine holds_one c o L st s st1 l ih.1 fun rest => ⟨n + 1, ?_⟩
      have hm := lib_more c.ci f es b hf hg (by rintro rfl; exact hne rfl rfl)
      rw [run]
      simp only [step, hk, kindOf_reader.2.1, ne_eq, hm, not_false_eq_true, if_true, hn, Option.map_some]
  | @merge o L l f sec st s st1 hi _ ih =>
    obtain ⟨hf, -, ws, hws, hask, -, hsay⟩ := hi
    obtain ⟨es, b, rfl, hg, hk⟩ := says_many c.ci c.dev (fun n => c.card o n st.user) l _ f ws 40 (by decide +kernel) (hc.names o st.user) hf hws hsay
    obtain ⟨left, n, hn⟩ := ih.2 rfl _ (mergeArgs_asks c.ci f es b sec hf hg hask)
    refine holds_one c o L st s _ l ih.1 fun rest => ⟨n + 1, ?_⟩
    simp only [run, step, hk, kindOf_reader.2.2.2, inMode]
    rw [show run c n (.merge (o.getD []) false (f ++ spaced es b)) { st with mode := .preset } = some (s, left, st1) from hn]
    rfl
  | @get o L l f sec st st1 s st2 hi hcl _ ih =>
    obtain ⟨hf, -, ws, hws, hask, -, hsay⟩ := hi
    obtain ⟨es, b, rfl, hg, hk⟩ := says_many c.ci c.dev (fun n => c.card o n st.user) l _ f ws 42 (by decide +kernel) (hc.names o st.user) hf hws hsay
    obtain ⟨left, n, hn⟩ := ih.2 rfl _ (mergeArgs_asks c.ci f es b sec hf hg hask)
    refine holds_one c o L st s _ l ih.1 fun rest => ⟨n + 1, ?_⟩
    simp only [run, step, hk, kindOf_42, inMode]
    rw [show emit c (.clear (o.getD [])) { st with mode := .preset } = (.ok, st1) from hcl]
    simp only [andThen, hn]
    rfl
  | @getStop o L l f sec st s st1 hi hcl hne =>
    obtain ⟨hf, -, ws, hws, hask, -, hsay⟩ := hi
    obtain ⟨es, b, rfl, hg, hk⟩ := says_many c.ci c.dev (fun n => c.card o n st.user) l _ f ws 42 (by decide +kernel) (hc.names o st.user) hf hws hsay
    have hs : s ≠ .eof := by have := emit_stays c hc (.clear (o.getD [])) (st.inMode .preset); rw [hcl] at this; exact this
    refine holds_one c o L st s _ l hs fun rest => ⟨1, ?_⟩
    simp only [run, step, hk, kindOf_42, inMode]
    rw [show emit c (.clear (o.getD [])) { st with mode := .preset } = (s, st1) from hcl]
    cases s <;> first | exact absurd rfl hne | rfl
  | @script o L l ms f sec st st1 s st2 hi hcl _ ih =>
    obtain ⟨T, x, T', hk, hT, hx, hx', hms, ha⟩ := script_line c.ci c.dev (fun n => c.card o n st.user) l ms f sec hi (hc.names o st.user)
    obtain ⟨left, n, hn⟩ := ih.2 rfl _ ha
    obtain ⟨r, hr, hr'⟩ := clears_marks c (o.getD []) T x T' hT hx hx' ms st st1 .ok hcl hms (ms.flatMap (fun m => '<' :: m) ++ T).length (marks_len T ms)
    rw [hr' rfl] at hr
    refine holds_one c o L st s _ l ih.1 fun rest => ⟨n + 1, ?_⟩
    simp only [run, step, hk, hr, andThen, inMode]
    rw [show run c n (.merge (o.getD []) true T) { st1 with mode := .script } = some (s, left, st2) from hn]
    rfl
  | @scriptStop o L l ms f sec st s st1 hi hcl hne =>
    obtain ⟨T, x, T', hk, hT, hx, hx', hms, ha⟩ := script_line c.ci c.dev (fun n => c.card o n st.user) l ms f sec hi (hc.names o st.user)
    obtain ⟨r, hr, -⟩ := clears_marks c (o.getD []) T x T' hT hx hx' ms st st1 s hcl hms (ms.flatMap (fun m => '<' :: m) ++ T).length (marks_len T ms)
    refine holds_one c o L st s _ l (clears_stays c hc.stays _ _ _ _ _ hcl) fun rest => ⟨1, ?_⟩
    simp only [run, step, hk, hr]
    cases s <;> first | exact absurd rfl hne | rfl
  | @build o L h body e st st1 hb hbody he _ ih =>
    obtain ⟨v, rest0, hv, hl, ht⟩ := hb
    have hk := kind_dotted c.ci c.dev (fun n => c.card o n st.user) h _ v rest0 43 (by decide +kernel) hv hl ht (hc.names o st.user)
    rw [kindOf_43] at hk
    refine ⟨by simp, ?_⟩
    rintro h' t ⟨⟩
    refine ⟨fun _ rest => ?_, fun hs => absurd rfl hs⟩
    have hend : Runs c (.body none (o.getD []) keyDot true (e :: rest)) st1 (.ok, rest, st1) := by
      rcases he with he | he
      · refine ⟨1, ?_⟩
        simp only [run, step, skipbl_front, he]
        rfl
      · obtain ⟨x, hx⟩ := (key_word c.ci ['.'] e (by decide)).1 he
        refine ⟨1, ?_⟩
        simp only [run, step]
        rw [show umatch c.ci keyDot e = .ok x from hx]
        split <;> rfl
    obtain ⟨n, hn⟩ := (ih.2.1 keyDot true (isKey_dot c) fun _ => hbody).1 rfl _ _ hend
    refine ⟨n + 1, ?_⟩
    simp only [run, step, hk, List.append_assoc, List.singleton_append]
    rw [show run c n (.body none (o.getD []) keyDot true (body ++ e :: rest)) { st with mode := .preset } = some (.ok, rest, st1) from hn]
    rfl
  | @buildStop o L h body b st s st1 hb hbody _ hne ih =>
    obtain ⟨v, rest0, hv, hl, ht⟩ := hb
    have hk := kind_dotted c.ci c.dev (fun n => c.card o n st.user) h _ v rest0 43 (by decide +kernel) hv hl ht (hc.names o st.user)
    rw [kindOf_43] at hk
    refine ⟨ih.1, ?_⟩
    rintro h' t ⟨⟩
    refine ⟨fun hs => absurd hs hne, fun _ rest => ?_⟩
    obtain ⟨left, n, hn⟩ := (ih.2.1 keyDot true (isKey_dot c) fun _ => hbody).2 hne (b ++ rest)
    refine ⟨left, n + 1, ?_⟩
    simp only [run, step, hk, List.append_assoc]
    rw [show run c n (.body none (o.getD []) keyDot true (body ++ (b ++ rest))) { st with mode := .preset } = some (s, left, st1) from hn]
    rfl
  | @inc o L l v f fl st s st1 hi hdev hcard hfile hbare _ hnf ih =>
    obtain ⟨hf, hv, g, b, hg, hg', hb, hl⟩ := hi
    have hk := inc_line c.ci c.dev (fun n => c.card o n st.user) l v g f b hv hl hg hg' hf hdev hcard
    have hwd : (word (f ++ b)).1 = f := by rw [word_plain f b hf (isTerm_blank b hb)]
    have hrun : ∃ left, Runs c (.top (o.getD []) fl) st (s, left, st1) := by
      obtain ⟨h1, h2⟩ := ih.2.2 rfl hbare
      by_cases hs : s = .ok
      · subst hs
        have := h1 rfl [] (.ok, [], st1) ⟨1, rfl⟩
        rw [List.append_nil] at this
        exact ⟨[], this⟩
      · obtain ⟨left, hl⟩ := h2 hs []
        rw [List.append_nil] at hl
        exact ⟨left, hl⟩
    obtain ⟨left, n, hn⟩ := hrun
    refine holds_one c o L st s st1 l ih.1 fun rest => ⟨n + 1, ?_⟩
    simp only [run, step, hk, hwd, hfile, Bool.false_eq_true, if_false]
    rw [show run c n (.top (o.getD []) fl) { st with cwd := st.cwd } = some (s, left, st1) from hn]
    cases s <;> first | exact absurd rfl hnf | rfl
  | @incBroken o L l v f fl st st1 hi hdev hcard hfile hbare _ ih =>
    obtain ⟨hf, hv, g, b, hg, hg', hb, hl⟩ := hi
    have hk := inc_line c.ci c.dev (fun n => c.card o n st.user) l v g f b hv hl hg hg' hf hdev hcard
    have hwd : (word (f ++ b)).1 = f := by rw [word_plain f b hf (isTerm_blank b hb)]
    obtain ⟨left, h1⟩ := (ih.2.2 rfl hbare).2 (by simp) []
    rw [List.append_nil] at h1
    obtain ⟨n, hn⟩ := h1
    refine holds_one c o L st _ _ l (emit_stays c hc _ _) fun rest => ⟨n + 1, ?_⟩
    simp only [run, step, hk, hwd, hfile, Bool.false_eq_true, if_false]
    rw [show run c n (.top (o.getD []) fl) { st with cwd := st.cwd } = some (.nofile, left, st1) from hn]
    simp only [Option.map_some, warned]
    generalize emit c (.warn l) st1 = r
    obtain ⟨e, st2⟩ := r
    cases e <;> rfl
  | @incMissing o L l v f st hi hdev hcard hfile =>
    obtain ⟨hf, hv, g, b, hg, hg', hb, hl⟩ := hi
    have hk := inc_line c.ci c.dev (fun n => c.card o n st.user) l v g f b hv hl hg hg' hf hdev hcard
    have hwd : (word (f ++ b)).1 = f := by rw [word_plain f b hf (isTerm_blank b hb)]
    refine holds_one c o L st _ _ l (emit_stays c hc _ _) fun rest => ⟨1, ?_⟩
    simp only [run, step, hk, hwd, hfile, Bool.false_eq_true, if_false, warned]
    rw [show emit c (.warn l) { st with cwd := st.cwd } = emit c (.warn l) st from rfl]
    generalize emit c (.warn l) st = r
    obtain ⟨e, st1⟩ := r
    cases e <;> rfl
  | @incRel o L l f fl st st1 hi hfile hbare _ ih =>
    obtain ⟨b, hb, hk⟩ := rel_line c.ci c.dev (fun n => c.card o n st.user) l f hi (hc.names o st.user)
    have hwd : (word (f ++ b)).1 = f := by rw [word_plain f b hi.1 (isTerm_blank b hb)]
    have h1 := (ih.2.2 rfl hbare).1 rfl [] (.ok, [], st1) ⟨1, rfl⟩
    rw [List.append_nil] at h1
    obtain ⟨n, hn⟩ := h1
    refine holds_one c o L st .ok _ l (by simp) fun rest => ⟨n + 1, ?_⟩
    simp only [run, step, hk, hwd, hfile, if_true, hn, Option.map_some]
  | @incRelMissing o L l f st st1 hi hfile hw =>
    obtain ⟨b, hb, hk⟩ := rel_line c.ci c.dev (fun n => c.card o n st.user) l f hi (hc.names o st.user)
    have hwd : (word (f ++ b)).1 = f := by rw [word_plain f b hi.1 (isTerm_blank b hb)]
    refine holds_one c o L st .ok _ l (by simp) fun rest => ⟨1, ?_⟩
    simp only [run, step, hk, hwd, hfile, if_true, warned, hw, andThen]
  | @missing L title f sec st hfile =>
    exact ⟨by simp, fun _ rest ha => ⟨[], 1, by simp only [run, step, ha, if_true, andThen, hfile]⟩⟩
  | @file L f sec fl st s st1 hfile _ ih =>
    refine ⟨ih.1, fun _ rest ha => ?_⟩
    obtain ⟨left, n, hn⟩ := ih.2 rfl
    refine ⟨left, n + 1, ?_⟩
    simp only [run, step, ha, if_true, andThen, hfile, Bool.false_eq_true, if_false]
    by_cases hsec : sec = []
    · rw [if_pos hsec] at hn ⊢; exact hn
    · rw [if_neg hsec] at hn ⊢; exact hn
  | @titled L f sec h fl st st1 s st2 hfile hti _ ih =>
    refine ⟨ih.1, fun _ rest ha => ?_⟩
    obtain ⟨left, n, hn⟩ := ih.2 rfl
    refine ⟨left, n + 1, ?_⟩
    simp only [run, step, ha, if_true, andThen, hfile, hti]
    by_cases hsec : sec = []
    · rw [if_pos hsec] at hn ⊢; exact hn
    · rw [if_neg hsec] at hn ⊢; exact hn
  | @titleStop L f sec h fl st s st1 hfile hti hne =>
    have hs : s ≠ .eof := by have := emit_stays c hc (.title h) st; rw [hti] at this; exact this
    refine ⟨hs, fun _ rest ha => ⟨[], 1, ?_⟩⟩
    simp only [run, step, ha, if_true, andThen_ok, hfile, hti, andThen_bad s hne]
  | @all L body tail st s st1 ht _ ih =>
    exact ⟨ih.1, fun _ => text_all c L body tail st st1 s ht ih⟩
  | @part L sec fl bs st s st1 hn hp _ ih =>
    refine ⟨ih.1, fun _ => ?_⟩
    rw [if_neg hn.plain.ne]
    exact ih.2 rfl sec fl hn.special hp
  | @eachDone o L st =>
    refine ⟨by simp, fun _ sec fl hs hp => ?_⟩
    generalize hbb : ([] : List (List Line)) = bb at hp
    induction hp with
    | nil => exact ⟨[], 1, rfl⟩
    | @other l t bs hno _ ih =>
      obtain ⟨left, n, hn⟩ := ih hbb
      exact ⟨left, n + 1, by simp only [run, step, (lib_key c.ci sec l hs).2 hno, hn]⟩
    | part => cases hbb
    | last => cases hbb
  | @eachSeq o L b bs st st1 s st2 _ _ ih1 ih2 =>
    refine ⟨ih2.1, fun ho sec fl hs hp => ?_⟩
    subst ho
    obtain ⟨t, rest, h1, -, h3, h4⟩ := sections_runs c sec hs L fl st b bs hp
    obtain ⟨left, hr⟩ := ih2.2 rfl sec t hs h3
    refine ⟨left, h1 st st1 _ ?_ hr⟩
    refine (holds_body ih1 _ (isKey_endl c sec hs)).1 rfl rest _ ?_
    rcases h4 with ⟨rfl, rfl⟩ | ⟨e, rfl, he⟩
    · exact body_nil _ _ _ _ _ _
    · obtain ⟨x, hx⟩ := (endl_key c.ci sec e hs).1 he
      exact body_end _ _ _ _ e t _ x hx
  | @eachStop o L b bs st s st1 _ hne ih =>
    refine ⟨ih.1, fun ho sec fl hs hp => ?_⟩
    subst ho
    obtain ⟨t, rest, -, h2, -, -⟩ := sections_runs c sec hs L fl st b bs hp
    obtain ⟨left, hr⟩ := (holds_body ih _ (isKey_endl c sec hs)).2 hne rest
    exact ⟨left, h2 st st1 s left hne hr⟩

end

/-! ### from lines to examples -/

theorem same_refl (ci : Bool) (k : List Char) : Same ci k k := by
  induction k with
  | nil => exact .nil
  | cons c k ih => exact .cons (by simp [eqc]) ih

/-- a line whose first word is another ends nothing -/
theorem inside_of (ci : Bool) (l w t : List Char) (hl : front l = w ++ t) (hw : ∀ c ∈ w, isTermChar c = false) (ht : isTerm t = true)
    (h : ∀ k ∈ [dEnd, dEnds, dEom, dEndl, ['.']], ¬ Same ci w k) : Inside ci l := by
  have key : ∀ k ∈ [dEnd, dEnds, dEom, dEndl, ['.']], ¬ First ci k l := by
    intro k hk
    rintro ⟨r, v, h1, h2, h3⟩
    rw [hl] at h1
    have hk' : ∀ c ∈ k, isTermChar c = false := by
      simp only [List.mem_cons, List.not_mem_nil, or_false] at hk
      rcases hk with rfl | rfl | rfl | rfl | rfl <;> decide
    exact h k hk ((first_of_word hw hk' ht h1 h2 h3) ▸ h2)
  refine ⟨key _ (by simp), ?_, key _ (by simp), key _ (by simp)⟩
  rintro (h1 | ⟨w', r, rfl, h2, h3⟩)
  · exact key _ (by simp) h1
  · refine key dEom (by simp) ⟨r, w', ?_, h2, h3⟩
    cases h2 with
    | cons hd _ =>
      rename_i d w'' _
      have : d = '.' := eqc_mark ci d '.' (by decide) hd
      subst this
      rw [← skipbl_front]
      exact skipbl_cons _ (by decide)

theorem short_not_same (ci : Bool) (w k : List Char) (h : w.length ≠ k.length ∨ ∃ i : ℕ, ∃ h1 : i < w.length, ∃ h2 : i < k.length, eqc ci w[i] k[i] = false) :
    ¬ Same ci w k := by
  intro hs
  rcases h with h | ⟨i, h1, h2, h3⟩
  · exact h hs.length_eq
  · have := List.Forall₂.get hs h1 h2
    simp only [List.get_eq_getElem] at this
    rw [h3] at this
    cases this

instance (ci : Bool) (w k : List Char) : Decidable (Same ci w k) := by unfold Same; infer_instance

section
variable {σ : Type}

/-- **C94, a file by itself**: every line is read, and nothing is left over. -/
theorem file_read (c : Cfg σ) (hc : Sane c) (ls : List Line) (st : State σ) (s : Stat) (st' : State σ) (h : Means c none [] (.lines ls) st s st') :
    ∃ left, Runs c (.body none [] keyEnd false ls) st (s, left, st') ∧ (s = .ok → left = []) := by
  have := holds_body (means_runs c hc _ _ _ _ _ _ h) keyEnd (isKey_end c)
  by_cases hs : s = .ok
  · subst hs
    refine ⟨[], ?_, fun _ => rfl⟩
    have := this.1 rfl [] _ (body_nil c none [] keyEnd false st')
    rwa [List.append_nil] at this
  · obtain ⟨left, hl⟩ := this.2 hs []
    rw [List.append_nil] at hl
    exact ⟨left, hl, fun h => absurd h hs⟩

theorem body_inv (c : Cfg σ) (o : Option Scope) (L : Scope) (key : List Char) (l : Line) (t t' : List Line) (st st1 : State σ) (out : Out σ)
    (h : umatch c.ci key l = .fail) (h1 : Runs c (.line o L (pre c.ci l) l t) st (.ok, t', st1)) (h2 : Runs c (.body o L key false (l :: t)) st out) :
    Runs c (.body o L key false t') st1 out := by
  obtain ⟨n, hn⟩ := h2
  cases n with
  | zero => cases hn
  | succ n =>
    simp only [run, step, h, Bool.false_and] at hn
    obtain ⟨r, hr, hk⟩ := Option.bind_eq_some_iff.mp hn
    have := runs_unique c _ _ _ _ ⟨n, hr⟩ h1
    subst this
    exact ⟨n, hk⟩

/-- all of a file -/
theorem means_incl {c : Cfg σ} {o : Option Scope} {L : Scope} {f : List Char} {l : Line} {fl : List Line} {st st1 : State σ} {s : Stat} (hi : Incl c.ci f l)
    (hfile : c.file st.cwd f st.user = some fl) (hm : Means c none (o.getD []) (.lines fl) st s st1) : Means c o L (.item [l]) st s st1 := by
  refine .incl (.inl hi) (.file hfile ?_)
  have := Means.all (tail := []) (.inl rfl) hm
  rwa [List.append_nil] at this

/-- a section of it -/
theorem means_use {c : Cfg σ} {o : Option Scope} {L : Scope} {f sec : List Char} {l : Line} {fl : List Line} {bs : List (List Line)} {st st1 : State σ} {s : Stat}
    (hi : Use c.ci f sec l) (hfile : c.file st.cwd f st.user = some fl) (hp : Parts c.ci sec fl bs) (hm : Means c none (o.getD []) (.each bs) st s st1) :
    Means c o L (.item [l]) st s st1 :=
  .incl (.inr hi.2) (.file hfile (.part (hi.2.2.1 hi.1) hp hm))

/-- **C94, files in place.** At the top of a circuit `.include f` is as if the lines of the file were written there: whatever lines follow,
the end and the state at the end are the same. -/
theorem in_place (c : Cfg σ) (hc : Sane c) (f : List Char) (l : Line) (fl : List Line) (st st1 : State σ) (s : Stat) (hi : Incl c.ci f l)
    (hl : Inside c.ci l) (hfile : c.file st.cwd f st.user = some fl) (hm : Means c none [] (.lines fl) st s st1) (key : List Char) (hk : IsKey c key)
    (rest : List Line) (out out' : Out σ) (h1 : Runs c (.body none [] key false (l :: rest)) st out)
    (h2 : Runs c (.body none [] key false (fl ++ rest)) st out') : out.1 = out'.1 ∧ out.2.2 = out'.2.2 := by
  have hitem : Means c none [] (.item [l]) st s st1 := means_incl hi hfile hm
  have hH := (means_runs c hc _ _ _ _ _ _ hitem).2 l [] rfl
  have hF := holds_body (means_runs c hc _ _ _ _ _ _ hm) key hk
  have hne := (means_runs c hc _ _ _ _ _ _ hm).1
  by_cases hs : s = .ok
  · subst hs
    have h3 := body_inv c none [] key l rest rest st st1 out (hk l hl) (hH.1 rfl rest) h1
    have h4 := hF.1 rfl rest out h3
    rw [runs_unique c _ _ _ _ h4 h2]
    exact ⟨rfl, rfl⟩
  · obtain ⟨left, h3⟩ := hH.2 hs rest
    have h4 := body_stop c none [] key false l _ left st st1 s (hk l hl) (by simp) h3 hs hne
    obtain ⟨left', h5⟩ := hF.2 hs rest
    rw [runs_unique c _ _ _ _ h1 h4, runs_unique c _ _ _ _ h2 h5]
    exact ⟨rfl, rfl⟩

/-- **a section that is not there** is no error and no warning: nothing happens. -/
theorem missing_section_wrong (c : Cfg σ) (hc : Sane c) (o : Option Scope) (L : Scope) (f sec : List Char) (l : Line) (fl rest : List Line) (st : State σ)
    (hu : Use c.ci f sec l) (hfile : c.file st.cwd f st.user = some fl) (hno : ∀ h ∈ fl, ¬ Opens c.ci sec h) :
    Runs c (.line o L (pre c.ci l) l rest) st (.ok, rest, st) := by
  have hp : Parts c.ci sec fl [] := by
    clear hfile
    induction fl with
    | nil => exact .nil
    | cons h t ih => exact .other (hno h (by simp)) (ih fun x hx => hno x (by simp [hx]))
  exact ((means_runs c hc o L _ st .ok st (means_use hu hfile hp .eachDone)).2 l [] rfl).1 rfl rest

/-- **a subcircuit's file**: an instance of a file that is included in a subcircuit is put into it without an owner; a command there works
on the whole circuit. -/
theorem include_in_subckt_wrong (c : Cfg σ) (hc : Sane c) (sc : Scope) (f : List Char) (l d m : Line) (rest : List Line) (st : State σ) (hi : Incl c.ci f l)
    (hd : Card c.ci c.dev d) (hd' : Inside c.ci d) (hm : Order c.ci m) (hm' : Inside c.ci m) :
    (c.file st.cwd f st.user = some [d] → (emit c (.elem none sc d) st).1 = .ok →
      Runs c (.line (some sc) sc (pre c.ci l) l rest) st (.ok, rest, (emit c (.elem none sc d) st).2)) ∧
    (c.file st.cwd f st.user = some [m] → (emit c (.cmd [] m) st).1 = .ok →
      Runs c (.line (some sc) sc (pre c.ci l) l rest) st (.ok, rest, (emit c (.cmd [] m) st).2)) := by
  refine ⟨fun hf he => ?_, fun hf he => ?_⟩
  · have h1 : Means c none sc (.item [d]) st _ _ := .card hd
    rw [he] at h1
    have h2 : Means c none sc (.lines [d]) st .ok _ := .seq (b := []) hd' h1 .done
    exact ((means_runs c hc (some sc) sc _ st .ok _ (means_incl hi hf h2)).2 l [] rfl).1 rfl rest
  · have h1 : Means c none sc (.item [m]) st _ _ := .order hm
    simp only [Option.getD_none] at h1
    rw [he] at h1
    have h2 : Means c none sc (.lines [m]) st .ok _ := .seq (b := []) hm' h1 .done
    exact ((means_runs c hc (some sc) sc _ st .ok _ (means_incl hi hf h2)).2 l [] rfl).1 rfl rest

/-- what they would do in place -/
theorem in_subckt (c : Cfg σ) (hc : Sane c) (sc : Scope) (d m : Line) (rest : List Line) (st : State σ) (hd : Card c.ci c.dev d) (hm : Order c.ci m) :
    Runs c (.line (some sc) sc (pre c.ci d) d rest) st ((emit c (.elem (some sc) sc d) st).1, rest, (emit c (.elem (some sc) sc d) st).2) ∧
    Runs c (.line (some sc) sc (pre c.ci m) m rest) st ((emit c (.cmd sc m) st).1, rest, (emit c (.cmd sc m) st).2) := by
  refine ⟨⟨1, ?_⟩, ⟨1, ?_⟩⟩
  · simp only [run, step, kind_card _ _ _ d hd]
  · simp only [run, step, kind_order _ _ _ m hm (hc.names _ st.user)]
    rfl

end

/-! ### lines that are misread -/

/-- **`.eom` behind a blank** does not end a subcircuit, though `.ends` does. -/
theorem indented_eom_wrong (ci : Bool) : ¬ Closes ci [' ', '.', 'e', 'o', 'm'] ∧ Closes ci ['.', 'e', 'o', 'm'] ∧ Closes ci [' ', '.', 'e', 'n', 'd', 's'] := by
  refine ⟨?_, .inr ⟨dEom, [], rfl, same_refl _ _, rfl⟩, .inl ⟨[], dEnds, by decide, same_refl _ _, rfl⟩⟩
  rintro (⟨r, v, h1, h2, h3⟩ | ⟨w, r, h1, h2, h3⟩)
  · have h1' : v ++ r = ['.', 'e', 'o', 'm'] := h1.symm
    have := congrArg List.length h1'
    have hl : v.length = 5 := h2.length_eq
    simp [hl] at this
    omega
  · cases h2 with
    | cons hd _ =>
      simp only [List.cons_append, List.cons.injEq] at h1
      rw [← h1.1] at hd
      exact absurd (eqc_mark ci ' ' '.' (by decide) hd) (by decide)

theorem mark_not_named (ci : Bool) (x : Char) (v : List Char) (hx : x ∈ ['<', '!']) (hv : v ≠ []) : ¬ Named ci (x :: v) := by
  rintro ⟨n, i, hn, hw⟩
  have hm : n ∉ [['!'], ['<'], ['>']] := by
    have hl : n.length ≠ 1 := by
      have : v.length ≠ 0 := by simpa using hv
      rcases hw with rfl | ⟨_, rfl⟩
      · simpa using this
      · simpa [Gnucap.Sim.toLower] using this
    intro h
    simp only [List.mem_cons, List.not_mem_nil, or_false] at h
    rcases h with rfl | rfl | rfl <;> exact hl rfl
  have := (written_lead ci _ n i hn hm hw).mark x (by
    simp only [List.mem_cons, List.not_mem_nil, or_false] at hx ⊢
    rcases hx with rfl | rfl <;> simp)
  exact this rfl

/-- **a mark without a blank behind it**: `<list` does not read a file named `list`, `!list` does not call a program: the mark is passed over
and the command of that name is run. -/
theorem glued_wrong (ci : Bool) (dev found : List Char → Bool) (x : Char) (hx : x ∈ ['<', '!']) (l v n rest : List Char) (i : ℕ) (hn : (n, i) ∈ pairs)
    (hm : n ∉ [['!'], ['<'], ['>']]) (hw : Written ci v n) (hl : front l = x :: (v ++ rest)) (hr : isTerm rest = true) (hf : Clear ci found) :
    kind ci dev found (pre ci l) l = kindOf i (skipcom rest) := by
  have hlead := written_lead ci v n i hn hm hw
  have hx1 : isGraph x = true := front_graph hl
  have hx2 : isTermChar x = false ∧ x ≠ '>' ∧ x ≠ '*' ∧ x ≠ '.' ∧ x ≠ '"' ∧ x ≠ '\'' ∧ letter ci x = x := by
    simp only [List.mem_cons, List.not_mem_nil, or_false] at hx
    rcases hx with rfl | rfl <;> cases ci <;> decide
  obtain ⟨h1, h2, h3, h4, h5, h6, h7⟩ := hx2
  have hp : Plain (x :: v) := by
    refine ⟨by simp, ?_, ?_, by simpa using h5, by simpa using h6⟩
    · intro c hc
      rcases List.mem_cons.mp hc with rfl | hc
      · exact hx1
      · exact hlead.plain.graph c hc
    · intro c hc
      rcases List.mem_cons.mp hc with rfl | hc
      · exact h1
      · exact hlead.plain.noTerm c hc
  have hN : Named ci [x] := by
    simp only [List.mem_cons, List.not_mem_nil, or_false] at hx
    rcases hx with rfl | rfl
    · exact ⟨['<'], 41, by decide +kernel, .inl rfl⟩
    · exact ⟨['!'], 10, by decide +kernel, .inl rfl⟩
  have ht : typeOf ci (front l) = [x] := by
    unfold typeOf
    rw [hl, anti_plain ci _ x _ (skipbl_cons _ hx1) (fun h => absurd h h3)]
    split
    · rename_i heq; simp only [List.cons.injEq] at heq; exact absurd heq.1 h4
    · rename_i heq; simp only [List.cons.injEq] at heq; rw [← heq.1]; exact congrArg (fun c => [c]) h7
    · rename_i heq; cases heq
  have hs := skipbl_pre ci l x _ hl h2 (fun h => absurd h h3)
  rw [kind_of ci dev found l _ _ hs (by rw [hl]; simp) ht hN hf, pre_plain ci l x _ hl h2 (fun h => absurd h h3)]
  unfold parseCommand
  have hword : word (x :: (v ++ rest)) = (x :: v, skipcom rest) := word_plain _ _ hp hr
  have hk : known ci (x :: v) = false := by
    by_contra h; exact mark_not_named ci x v hx hlead.plain.ne ((known_iff ci _).mp (by simpa using h))
  rw [hword, hk]
  have := name_runs ci ⟨[], none, []⟩ (by simp [Front.ok]) _ i hn hm _ hw rest hr
  exact kindCmd_runs this

/-- **a card with the name of a command** takes the command away: `.tran` is then an instance. -/
theorem shadow_wrong (ci : Bool) (dev found : List Char → Bool) (l v n rest : List Char) (i : ℕ) (hn : (n, i) ∈ pairs) (hm : n ∉ [['!'], ['<'], ['>']])
    (hw : Written ci v n) (hd : ¬ Named ci ('.' :: v)) (hl : front l = '.' :: (v ++ rest)) (hr : isTerm rest = true) (hf : found v = true) :
    kind ci dev found (pre ci l) l = .elem := by
  have hlead := written_lead ci v _ i hn hm hw
  have hg : isGraph '.' = true := by decide
  have hp : Plain ('.' :: v) := by
    refine ⟨by simp, ?_, ?_, by simp, by simp⟩
    · intro c hc
      rcases List.mem_cons.mp hc with rfl | hc
      · exact hg
      · exact hlead.plain.graph c hc
    · intro c hc
      rcases List.mem_cons.mp hc with rfl | hc
      · decide
      · exact hlead.plain.noTerm c hc
  have hword : word ('.' :: (v ++ rest)) = ('.' :: v, skipcom rest) := word_plain _ _ hp hr
  have hk : known ci ('.' :: v) = false := by
    by_contra hx; exact hd ((known_iff ci _).mp (by simpa using hx))
  have ht : typeOf ci (front l) = v := by
    unfold typeOf
    rw [hl, anti_plain ci _ '.' _ (skipbl_cons _ hg) (by simp)]
    simp only [hword, hk]
    rfl
  have hs := skipbl_pre ci l '.' _ hl (by decide) (by simp)
  unfold kind isDot
  rw [hs, ht, hf]
  simp [hl]

theorem b_short : knownShort true ['B'] = true ∧ knownShort true ['b'] = true := by
  have h1 : ∀ w, w = ['B'] ∨ w = ['b'] → knownShort true w = true := by
    intro w hw
    unfold knownShort
    have e : umatch true ['b', '{', 'u', 'i', 'l', 'd', '}', ' '] w = .ok [] := by
      rw [Opt.umatch_sound true _ _ (by decide +kernel)]
      rcases hw with rfl | rfl <;> decide +kernel
    have hs : shorts = (['b', '{', 'u', 'i', 'l', 'd', '}', ' '], ['b', 'u', 'i', 'l', 'd']) :: shorts.tail := by decide +kernel
    rw [hs, List.find?_cons_of_pos (by simp only [hits, e])]
    exact (known_iff true _).mpr ⟨_, 43, by decide +kernel, .inl rfl⟩
  exact ⟨h1 _ (.inl rfl), h1 _ (.inr rfl)⟩

/-- **an element whose letter is `B`**: if no device has that letter, it is taken for `build`, and as that is not its whole name the `B` is
passed over: `Bclear 1 0` clears the circuit. -/
theorem letter_b_wrong (dev found : List Char → Bool) (hdev : dev ['B'] = false) (hfound : found ['B'] = false) (x : Char) (hx : x = 'b' ∨ x = 'B')
    (l v n rest : List Char) (i : ℕ) (hn : (n, i) ∈ pairs) (hm : n ∉ [['!'], ['<'], ['>']]) (hw : Written true v n) (hd : ¬ Named true (x :: v))
    (hl : front l = x :: (v ++ rest)) (hr : isTerm rest = true) : kind true dev found (pre true l) l = kindOf i (skipcom rest) := by
  have hlead := written_lead true v n i hn hm hw
  have hx1 : isGraph x = true := front_graph hl
  have hx2 : isTermChar x = false ∧ x ≠ '>' ∧ x ≠ '*' ∧ x ≠ '.' ∧ x ≠ '"' ∧ x ≠ '\'' ∧ letter true x = 'B' := by rcases hx with rfl | rfl <;> decide
  obtain ⟨h1, h2, h3, h4, h5, h6, h7⟩ := hx2
  have hp : Plain (x :: v) := by
    refine ⟨by simp, ?_, ?_, by simpa using h5, by simpa using h6⟩
    · intro c hc
      rcases List.mem_cons.mp hc with rfl | hc
      · exact hx1
      · exact hlead.plain.graph c hc
    · intro c hc
      rcases List.mem_cons.mp hc with rfl | hc
      · exact h1
      · exact hlead.plain.noTerm c hc
  have ht : typeOf true (front l) = ['B'] := by
    unfold typeOf
    rw [hl, anti_plain true _ x _ (skipbl_cons _ hx1) (fun h => absurd h h3)]
    split
    · rename_i heq; simp only [List.cons.injEq] at heq; exact absurd heq.1 h4
    · rename_i heq; simp only [List.cons.injEq] at heq; rw [← heq.1]; exact congrArg (fun c => [c]) h7
    · rename_i heq; cases heq
  have hs := skipbl_pre true l x _ hl h2 (fun h => absurd h h3)
  have hkind : kind true dev found (pre true l) l = parseCommand true (pre true l) := by
    unfold kind isDot
    rw [hs, if_neg (by rw [hl]; simp), ht]
    simp [hdev, hfound, b_short.1]
  rw [hkind, pre_plain true l x _ hl h2 (fun h => absurd h h3)]
  unfold parseCommand
  have hword : word (x :: (v ++ rest)) = (x :: v, skipcom rest) := word_plain _ _ hp hr
  have hk : known true (x :: v) = false := by
    by_contra h; exact hd ((known_iff true _).mp (by simpa using h))
  rw [hword, hk]
  have := name_runs true ⟨[], none, []⟩ (by simp [Front.ok]) _ i hn hm _ hw rest hr
  exact kindCmd_runs this

/-! ### files that are read otherwise -/

section
variable {σ : Type}

/-- **a file that is empty ends the file that runs it**: `< f` of an empty file ends the reading of the lines around it, with no error; the
lines behind it are not read. -/
theorem empty_file_wrong (c : Cfg σ) (hc : Sane c) (o : Option Scope) (L : Scope) (key : List Char) (hk : IsKey c key) (l g f b : List Char)
    (hl : front l = '<' :: (g ++ (f ++ b))) (hin : Inside c.ci l) (hg : Spaces g) (hg' : g ≠ []) (hb : Spaces b) (hf : Plain f) (hf' : f.head? ≠ some '<')
    (st : State σ) (hfile : c.file st.cwd f st.user = some []) (rest : List Line) :
    Runs c (.body o L key false (l :: rest)) st (.ok, rest, st) := by
  have hkind := run_line c.ci c.dev (fun n => c.card o n st.user) l g (f ++ b) hl hg hg' (hc.names o st.user)
  rw [skipcom_word g f b hg hf] at hkind
  have hcl : clears c (o.getD []) (f ++ b).length (f ++ b) st = (.ok, f ++ b, st) := by
    obtain ⟨x, f', rfl⟩ := List.exists_cons_of_ne_nil hf.ne
    have hx : x ≠ '<' := by simpa using hf'
    simp only [List.cons_append, List.length_cons]
    unfold clears
    split
    · rename_i heq; simp only [List.cons.injEq] at heq; exact absurd heq.1 hx
    · rfl
  refine ⟨3, ?_⟩
  have hm : run c 1 (.merge (o.getD []) true (f ++ b)) { st with mode := .script } = some (.eof, [], { st with mode := .script }) := by
    simp only [run, step, mergeArgs_file c.ci f b hf hb, if_true, andThen, hfile]
  have hl : run c 2 (.line o L (pre c.ci l) l rest) st = some (.eof, rest, st) := by
    rw [run]
    simp only [step, hkind, hcl, andThen, inMode, hm, Option.map_some]
  rw [run]
  simp only [step, hk l hin, Bool.false_and, hl, Option.bind_some]
  rfl

theorem skipcom_head (g T : List Char) (x : Char) (T' : List Char) (hg : Spaces g) (hT : T = x :: T') (hx : isGraph x = true) (hx' : x ≠ ',') : skipcom (g ++ T) = T := by
  subst hT
  exact head_skipcom (by rw [Spice.skipbl_blanks g _ hg]; exact skipbl_cons _ hx) hx'

/-- **two marks without a blank between**: `<< f` does not clear the circuit before the file is read, as `< < f` does: the first mark is passed
over. -/
theorem double_mark_wrong (c : Cfg σ) (hc : Sane c) (o : Option Scope) (L : Scope) (l g f b : List Char) (rest : List Line) (st st1 : State σ) (s : Stat)
    (hl : front l = '<' :: '<' :: (g ++ (f ++ b))) (hg : Spaces g) (hg' : g ≠ []) (hb : Spaces b) (hf : Plain f) (hf' : f.head? ≠ some '<')
    (hm : Means c none (o.getD []) (.file true f []) (st.inMode .script) s st1) :
    Runs c (.line o L (pre c.ci l) l rest) st (s, rest, st1.inMode st.mode) := by
  have hk : kind c.ci c.dev (fun n => c.card o n st.user) (pre c.ci l) l = .run (f ++ b) := by
    have hN : Named c.ci ['<'] := ⟨['<'], 41, by decide +kernel, .inl rfl⟩
    have hgr : isGraph '<' = true := by decide
    have ht : typeOf c.ci (front l) = ['<'] := by
      unfold typeOf
      rw [hl, anti_plain c.ci _ '<' _ (skipbl_cons _ hgr) (by simp)]
      cases c.ci <;> rfl
    have hs := skipbl_pre c.ci l '<' _ hl (by decide) (by simp)
    rw [kind_of c.ci c.dev _ l _ _ hs (by rw [hl]; simp) ht hN (hc.names o st.user), pre_plain c.ci l '<' _ hl (by decide) (by simp)]
    have hw : word ('<' :: '<' :: (g ++ (f ++ b))) = (['<', '<'], skipcom (g ++ (f ++ b))) :=
      word_plain ['<', '<'] _ ⟨by simp, by decide, by decide, by decide, by decide⟩ (isTerm_spaces g _ hg hg')
    have hno : known c.ci ['<', '<'] = false := by
      by_contra h; exact mark_not_named c.ci '<' ['<'] (by simp) (by simp) ((known_iff c.ci _).mp (by simpa using h))
    unfold parseCommand
    rw [hw, hno]
    have h1 := (mark_runs c.ci booted [] (g ++ (f ++ b)) (by simp)).2.1
    rw [answer_found c.ci ['<'] 41 _ (by decide +kernel)] at h1
    rw [List.nil_append] at h1
    simp only [Bool.false_eq_true, if_false, List.tail_cons]
    rw [kindCmd_runs h1, kindOf_41, skipcom_word g f b hg hf]
  have hcl : clears c (o.getD []) (f ++ b).length (f ++ b) st = (.ok, f ++ b, st) := by
    obtain ⟨x, f', rfl⟩ := List.exists_cons_of_ne_nil hf.ne
    have hx : x ≠ '<' := by simpa using hf'
    simp only [List.cons_append, List.length_cons]
    unfold clears
    split
    · rename_i heq; simp only [List.cons.injEq] at heq; exact absurd heq.1 hx
    · rfl
  obtain ⟨left, n, hn⟩ := (means_runs c hc _ _ _ _ _ _ hm).2 rfl _ (mergeArgs_file c.ci f b hf hb)
  refine ⟨n + 1, ?_⟩
  simp only [run, step, hk, hcl, andThen_ok, inMode]
  rw [show run c n (.merge (o.getD []) true (f ++ b)) { st with mode := .script } = some (s, left, st1) from hn]
  rfl

/-- **a file that an `.inc` file names and that is not there**: it is warned of on the line of `.inc`; the lines behind it in the file are not
read, those behind the `.inc` are. -/
theorem inc_nested_wrong (c : Cfg σ) (hc : Sane c) (o : Option Scope) (L : Scope) (l m : Line) (v f g : List Char) (lost rest : List Line) (st : State σ)
    (hi : Inc c.ci v f l) (hdev : c.dev v = false) (hcard : c.card o v st.user = false)
    (hfile : c.file st.cwd (c.find st.cwd f st.user) st.user = some (m :: lost)) (hm : Incl c.ci g m) (hm' : Inside c.ci m)
    (hbare : ∀ l ∈ m :: lost, Bare l) (hno : c.file st.cwd g st.user = none) (hw : (emit c (.warn l) st).1 = .ok) :
    Runs c (.line o L (pre c.ci l) l rest) st (.ok, rest, (emit c (.warn l) st).2) := by
  have h1 : Means c none (o.getD []) (.lines (m :: lost)) st .nofile st := .stop (b := []) (ls := lost) hm' (.incl (.inl hm) (.missing hno)) (by simp)
  have h2 := Means.incBroken (L := L) hi hdev hcard hfile hbare h1
  rw [hw] at h2
  exact ((means_runs c hc o L _ _ _ _ h2).2 l [] rfl).1 rfl rest

/-- **an exception in a file of** ``.`include``: the directory of the file stays the current one, where a file read to its end would leave the
old one. -/
theorem include_dir_wrong (c : Cfg σ) (hc : Sane c) (o : Option Scope) (L : Scope) (l : Line) (f : List Char) (fl rest : List Line) (st st1 : State σ) (s : Stat)
    (hi : IncRel c.ci f l)
    (hfile : c.file (c.enter st.cwd (c.dirname (c.find st.cwd f st.user))) (c.basename (c.find st.cwd f st.user)) st.user = some fl) (hbare : ∀ l ∈ fl, Bare l)
    (hm : Means c none (o.getD []) (.lines fl) { st with cwd := c.enter st.cwd (c.dirname (c.find st.cwd f st.user)) } s st1) (hne : s ≠ .ok) (hnf : s ≠ .nofile) :
    Runs c (.line o L (pre c.ci l) l rest) st (s, rest, st1) := by
  obtain ⟨b, hb, hk⟩ := rel_line c.ci c.dev (fun n => c.card o n st.user) l f hi (hc.names o st.user)
  have hwd : (word (f ++ b)).1 = f := by rw [word_plain f b hi.1 (isTerm_blank b hb)]
  obtain ⟨left, h1⟩ := ((means_runs c hc _ _ _ _ _ _ hm).2.2 rfl hbare).2 hne []
  rw [List.append_nil] at h1
  obtain ⟨n, hn⟩ := h1
  refine ⟨n + 1, ?_⟩
  simp only [run, step, hk, hwd, hfile, if_true, hn, Option.map_some]

/-- a word that is no option ends the options -/
theorem mergeArgs_more (ci : Bool) (f g sec g' T : List Char) (x : Char) (T' : List Char) (hf : Plain f) (hg : Spaces g) (hn : g ≠ []) (hs : Section ci sec)
    (hg' : Spaces g') (hn' : g' ≠ []) (hT : T = x :: T') (hx : isGraph x = true) (hx' : x ≠ ',') :
    mergeArgs ci (f ++ (g ++ (sec ++ (g' ++ T)))) = some (f, sec, T) := by
  have hp := hs.name.plain
  have ht : isTerm (g' ++ T) = true := isTerm_spaces g' T hg' hn'
  have hsk : skipbl (sec ++ (g' ++ T)) = sec ++ (g' ++ T) := by
    obtain ⟨d, w, hd⟩ := List.exists_cons_of_ne_nil hp.ne
    rw [hd, List.cons_append]
    exact skipbl_cons _ (hp.graph d (by rw [hd]; simp))
  have h1 : mergeTry ci [] (sec ++ (g' ++ T)) mergeFlags = some ([], sec ++ (g' ++ T)) := by
    rw [try_past ci [] sec _ hp ht (fun k hk => hs.word k (by
      simp only [List.mem_cons, List.not_mem_nil, or_false] at hk ⊢
      rcases hk with rfl | rfl | rfl <;> simp)) hs.no]
    have h3 : umatch ci (wSection ++ [' ', '{', '=', '}']) (sec ++ (g' ++ T)) = .fail := by
      have := (single_ok ci (wSection.map .lit ++ .delim :: [.opt ['=']]) (by decide) (sec ++ (g' ++ T)) _
        (first_segs ci wSection [.opt ['=']] (sec ++ (g' ++ T)) fun s => ⟨_, rfl⟩)).2
      rw [show segText (wSection.map .lit ++ .delim :: [.opt ['=']]) = wSection ++ [' ', '{', '=', '}'] by decide] at this
      refine this ?_
      rintro ⟨r, v, h1, h2, h3⟩
      rw [← skipbl_front, hsk] at h1
      exact hs.word wSection (by decide) ((first_of_word hp.noTerm (by decide) ht h1 h2 h3) ▸ h2)
    rw [mergeTry, h3]
  have hne : sec ++ (g' ++ T) ≠ [] := by simp [hp.ne]
  unfold mergeArgs
  rw [word_plain f _ hf (isTerm_spaces g _ hg hn), skipcom_word g sec _ hg hp]
  simp only [mergeLoop, h1, hsk, if_neg hne, lt_irrefl, if_false]
  obtain ⟨d, w, hd⟩ := List.exists_cons_of_ne_nil hne
  rw [hd]
  simp only
  rw [← hd, word_plain sec _ hp ht, skipcom_head g' T x T' hg' hT hx hx']

/-- **C94, what is too much is warned of**, and the section is read all the same. -/
theorem more_warned (c : Cfg σ) (hc : Sane c) (o : Option Scope) (L : Scope) (v g0 f g sec g' T : List Char) (x : Char) (T' : List Char) (l : Line)
    (fl rest : List Line) (bs : List (List Line)) (st st1 st2 : State σ) (s : Stat) (hv : Written c.ci v ['.', 'i', 'n', 'c', 'l', 'u', 'd', 'e'])
    (hl : front l = v ++ (g0 ++ (f ++ (g ++ (sec ++ (g' ++ T)))))) (hg0 : Spaces g0) (hn0 : g0 ≠ []) (hf : Plain f) (hg : Spaces g) (hn : g ≠ [])
    (hs : Section c.ci sec) (hg' : Spaces g') (hn' : g' ≠ []) (hT : T = x :: T') (hx : isGraph x = true) (hx' : x ≠ ',')
    (hw : emit c (.warn T) st = (.ok, st1)) (hfile : c.file st1.cwd f st1.user = some fl) (hp : Parts c.ci sec fl bs)
    (hm : Means c none (o.getD []) (.each bs) st1 s st2) : Runs c (.line o L (pre c.ci l) l rest) st (s, rest, st2) := by
  have hk := kind_dotted c.ci c.dev (fun n => c.card o n st.user) l _ v _ 39 (by decide +kernel) hv hl (isTerm_spaces g0 _ hg0 hn0) (hc.names o st.user)
  rw [kindOf_reader.2.2.1, skipcom_word g0 f _ hg0 hf] at hk
  obtain ⟨left, n, hr⟩ := (means_runs c hc _ _ _ _ _ _ hm).2 rfl sec fl hs.name.special hp
  have hT' : T ≠ [] := by rw [hT]; simp
  refine ⟨n + 1 + 1, ?_⟩
  have h1 : run c (n + 1) (.merge (o.getD []) false (f ++ (g ++ (sec ++ (g' ++ T))))) st = some (s, left, st2) := by
    simp only [run, step, mergeArgs_more c.ci f g sec g' T x T' hf hg hn hs hg' hn' hT hx hx', if_neg hT', hw, andThen_ok, hfile, if_neg hs.name.plain.ne]
    simpa using hr
  rw [run]
  simp only [step, hk, h1, Option.map_some]

/-- **`.endl` of another section** ends this one: what is between it and this section's own `.endl` is not read. -/
theorem endl_of_another_wrong (c : Cfg σ) (hc : Sane c) (o : Option Scope) (L : Scope) (f sec : List Char) (l h e : Line) (body lost : List Line) (rest : List Line)
    (st st1 : State σ) (hu : Use c.ci f sec l) (hh : Opens c.ci sec h) (he : First c.ci dEndl e) (hlost : ∀ x ∈ lost, ¬ Opens c.ci sec x)
    (hfile : c.file st.cwd f st.user = some (h :: (body ++ e :: lost))) (hm : Means c none (o.getD []) (.lines body) st .ok st1) :
    Runs c (.line o L (pre c.ci l) l rest) st (.ok, rest, st1) := by
  have hp : Parts c.ci sec lost [] := by
    clear hfile
    induction lost with
    | nil => exact .nil
    | cons h t ih => exact .other (hlost h (by simp)) (ih fun x hx => hlost x (by simp [hx]))
  exact ((means_runs c hc o L _ st .ok st1 (means_use hu hfile (.part hh he hp) (.eachSeq hm .eachDone))).2 l [] rfl).1 rfl rest

/-- **`.inc` is not short for `.include`**: a file that is not there is an error for the one and ends the reading, for the other it is a
warning and the next line is read. -/
theorem inc_other_wrong (c : Cfg σ) (hc : Sane c) (o : Option Scope) (L : Scope) (l l' v g f b : List Char) (rest : List Line) (st : State σ)
    (hv : Written c.ci v ['i', 'n', 'c']) (hl : front l = '.' :: (v ++ (g ++ (f ++ b)))) (hg : Spaces g) (hg' : g ≠ []) (hb : Spaces b) (hf : Plain f)
    (hdev : c.dev v = false) (hcard : c.card o v st.user = false) (hi : Incl c.ci f l') (hfind : c.find st.cwd f st.user = f)
    (hfile : c.file st.cwd f st.user = none) (hw : (emit c (.warn l) st).1 = .ok) :
    Runs c (.line o L (pre c.ci l) l rest) st (.ok, rest, (emit c (.warn l) st).2) ∧ Runs c (.line o L (pre c.ci l') l' rest) st (.nofile, rest, st) := by
  constructor
  · have hk := inc_line c.ci c.dev (fun n => c.card o n st.user) l v g f b hv hl hg hg' hf hdev hcard
    have hwd : (word (f ++ b)).1 = f := by rw [word_plain f b hf (isTerm_blank b hb)]
    refine ⟨1, ?_⟩
    simp only [run, step, hk, hwd, hfind]
    generalize hr : emit c (.warn l) st = r at hw
    obtain ⟨e, st1⟩ := r
    simp only at hw
    subst hw
    simp [warned, andThen, hr, hfile]
  · obtain ⟨hf', -, ws, hws, hask, -, hsay⟩ := hi
    obtain ⟨es, b', rfl, hg, hk⟩ := says_many c.ci c.dev (fun n => c.card o n st.user) l' _ f ws 39 (by decide +kernel) (hc.names o st.user) hf' hws hsay
    exact ⟨2, by simp only [run, step, hk, kindOf_reader.2.2.1, mergeArgs_asks c.ci f es b' [] hf' hg hask, if_true, andThen, hfile, Option.map_some]⟩

end

/-! ### a circuit that keeps a book of what happens -/

/-- everything is written down; resistors are the only device; one file `f` -/
def book (fl : List Line) : Cfg (List Event) where
  ci := true
  card := fun _ _ _ => false
  dev := fun n => n == ['R']
  file := fun _ f _ => if f = ['f'] then some fl else none
  act := fun _ e x => (.ok, x.1, x.2 ++ [e])
  find := fun _ f _ => f
  dirname := fun _ => ['.']
  basename := fun f => f
  enter := fun d _ => d

theorem book_sane (fl : List Line) : Sane (book fl) := ⟨fun _ _ n h => (Bool.false_ne_true h).elim, fun _ _ _ h => by cases h⟩

def blankState (u : List Event) : State (List Event) := ⟨.batch, [], u⟩

/-- `R1 a b` -/
def lineR : Line := ['R', '1', ' ', 'a', ' ', 'b']
/-- `.ac 1` -/
def lineAc : Line := ['.', 'a', 'c', ' ', '1']
/-- `.subckt s a b` -/
def lineSub : Line := ['.', 's', 'u', 'b', 'c', 'k', 't', ' ', 's']
/-- `.ends` -/
def lineEnds : Line := ['.', 'e', 'n', 'd', 's']
/-- `.include f` -/
def lineInc : Line := ['.', 'i', 'n', 'c', 'l', 'u', 'd', 'e', ' ', 'f']
/-- `.lib f x`, `.lib x`, `.endl y` -/
def lineUse : Line := ['.', 'l', 'i', 'b', ' ', 'f', ' ', 'x']
def lineLib : Line := ['.', 'l', 'i', 'b', ' ', 'x']
def lineEndl : Line := ['.', 'e', 'n', 'd', 'l', ' ', 'y']

theorem r_card : Card true (fun n => n == ['R']) lineR := ⟨'R', ['1', ' ', 'a', ' ', 'b'], by decide, by decide, by decide, by decide⟩
theorem r_inside : Inside true lineR := inside_of true lineR ['R', '1'] [' ', 'a', ' ', 'b'] (by decide) (by decide) (by decide) (by decide)
theorem ac_names : ∀ e ∈ pairs, e.1 ≠ ['.', 'a', 'c'] := by decide +kernel
theorem ac_order : Order true lineAc := by
  refine ⟨['a', 'c'], ['a', 'c'], 48, [' ', '1'], by decide +kernel, by decide, by decide, .inr ⟨by decide, .inl rfl, ?_, by decide⟩⟩
  rintro ⟨n, i, hn, h | ⟨-, h⟩⟩
  · exact ac_names _ hn h.symm
  · exact ac_names _ hn (by simp only; rw [← h]; decide)
theorem ac_inside : Inside true lineAc := inside_of true lineAc ['.', 'a', 'c'] [' ', '1'] (by decide) (by decide) (by decide) (by decide)
theorem f_plain : Plain ['f'] := ⟨by decide, by decide, by decide, by decide, by decide⟩
theorem x_plain : Plain ['x'] := ⟨by decide, by decide, by decide, by decide, by decide⟩
theorem x_section : Section true ['x'] := ⟨⟨x_plain, by decide⟩, by decide, by
  intro k hk p q h hs
  have h1 := congrArg List.length h
  have h2 := hs.length_eq
  simp only [List.mem_cons, List.not_mem_nil, or_false] at hk
  rcases hk with rfl | rfl | rfl <;> simp at h1 h2 <;> omega⟩
theorem spaces_one : ∀ g ∈ [[' ']], Spaces g ∧ g ≠ [] := by
  intro g hg
  simp only [List.mem_cons, List.not_mem_nil, or_false] at hg
  subst hg
  exact ⟨by intro c hc; simp only [List.mem_cons, List.not_mem_nil, or_false] at hc; subst hc; decide, by simp⟩
theorem inc_incl : Incl true ['f'] lineInc :=
  ⟨f_plain, by simp, [], by simp, .done, by decide, _, .inl rfl, [[' ']], [], rfl, spaces_one, (by intro c hc; cases hc), by decide⟩
theorem inc_inside : Inside true lineInc :=
  inside_of true lineInc ['.', 'i', 'n', 'c', 'l', 'u', 'd', 'e'] [' ', 'f'] (by decide) (by decide) (by decide) (by decide)
theorem use_use : Use true ['f'] ['x'] lineUse := by
  refine ⟨by simp, f_plain, fun _ => x_section.name, [['x']], by simpa using x_plain, .bare x_section, by simp, dLib, .inl rfl, [[' '], [' ']], [], rfl, ?_,
    (by intro c hc; cases hc), by decide⟩
  intro g hg
  have : g ∈ [[' ']] := by simpa using hg
  exact spaces_one g this
theorem sub_sub : Sub true lineSub := ⟨['.', 's', 'u', 'b', 'c', 'k', 't'], _, [' ', 's'], by decide, .inl rfl, by decide, by decide⟩
theorem sub_inside : Inside true lineSub :=
  inside_of true lineSub ['.', 's', 'u', 'b', 'c', 'k', 't'] [' ', 's'] (by decide) (by decide) (by decide) (by decide)
theorem ends_closes : Closes true lineEnds := .inl ⟨[], dEnds, by decide, same_refl _ _, rfl⟩

/-- a file with a resistor and a command means both, in order -/
theorem book_file (fl : List Line) (u : List Event) : Means (book fl) none [] (.lines [lineR, lineAc]) (blankState u) .ok
    (blankState (u ++ [.elem none [] lineR] ++ [.cmd [] lineAc])) :=
  .seq (b := []) r_inside (.card r_card) (.seq (b := []) ac_inside (.order ac_order) .done)

example : ∃ left, Runs (book []) (.body none [] keyEnd false [lineR, lineAc]) (blankState [])
    (.ok, left, blankState [.elem none [] lineR, .cmd [] lineAc]) ∧ (Stat.ok = .ok → left = []) :=
  file_read (book []) (book_sane []) _ _ _ _ (book_file [] [])

/-- the same by a file, then once more in place -/
example (out out' : Out (List Event))
    (h1 : Runs (book [lineR, lineAc]) (.body none [] keyEnd false (lineInc :: [lineR])) (blankState []) out)
    (h2 : Runs (book [lineR, lineAc]) (.body none [] keyEnd false ([lineR, lineAc] ++ [lineR])) (blankState []) out') :
    out.1 = out'.1 ∧ out.2.2 = out'.2.2 :=
  in_place (book [lineR, lineAc]) (book_sane _) ['f'] lineInc _ _ _ _ inc_incl inc_inside (by decide) (book_file _ []) keyEnd (isKey_end _) _ _ _ h1 h2

/-- **the same subcircuit, written and included**: the resistor belongs to the subcircuit if it is written there, to none if it comes from a
file; the command works on the subcircuit, or on the whole circuit. -/
theorem subckt_file_wrong :
    Runs (book [lineR, lineAc]) (.line none [] (pre true lineSub) lineSub [lineR, lineAc, lineEnds]) (blankState [])
      (.ok, [], blankState [.opens lineSub, .elem (some [lineSub]) [lineSub] lineR, .cmd [lineSub] lineAc, .closes [] lineSub]) ∧
    Runs (book [lineR, lineAc]) (.line none [] (pre true lineSub) lineSub [lineInc, lineEnds]) (blankState [])
      (.ok, [], blankState [.opens lineSub, .elem none [lineSub] lineR, .cmd [] lineAc, .closes [] lineSub]) := by
  have hsane := book_sane [lineR, lineAc]
  have h1 : Means (book [lineR, lineAc]) (some [lineSub]) [lineSub] (.lines [lineR, lineAc]) (blankState [.opens lineSub]) .ok
      (blankState [.opens lineSub, .elem (some [lineSub]) [lineSub] lineR, .cmd [lineSub] lineAc]) :=
    .seq (b := []) r_inside (.card r_card) (.seq (b := []) ac_inside (.order ac_order) .done)
  have h2 : Means (book [lineR, lineAc]) none [lineSub] (.lines [lineR, lineAc]) (blankState [.opens lineSub]) .ok
      (blankState [.opens lineSub, .elem none [lineSub] lineR, .cmd [] lineAc]) :=
    .seq (b := []) r_inside (.card r_card) (.seq (b := []) ac_inside (.order ac_order) .done)
  have h3 : Means (book [lineR, lineAc]) (some [lineSub]) [lineSub] (.lines [lineInc]) (blankState [.opens lineSub]) .ok
      (blankState [.opens lineSub, .elem none [lineSub] lineR, .cmd [] lineAc]) :=
    .seq (b := []) inc_inside (means_incl inc_incl (by decide) h2) .done
  constructor
  · exact ((means_runs _ hsane none [] _ _ _ _ (.sub (st := blankState []) (st1 := blankState [.opens lineSub]) (body := [lineR, lineAc]) sub_sub ends_closes rfl h1)).2 lineSub _ rfl).1 rfl []
  · exact ((means_runs _ hsane none [] _ _ _ _ (.sub (st := blankState []) (st1 := blankState [.opens lineSub]) (body := [lineInc]) sub_sub ends_closes rfl h3)).2 lineSub _ rfl).1 rfl []

/-- nothing is said of a section that is not there -/
example : Runs (book [lineR]) (.line none [] (pre true lineUse) lineUse []) (blankState []) (.ok, [], blankState []) := by
  refine missing_section_wrong (book [lineR]) (book_sane _) none [] ['f'] ['x'] lineUse [lineR] [] (blankState []) use_use (by decide) ?_
  intro h hh
  simp only [List.mem_cons, List.not_mem_nil, or_false] at hh
  subst hh
  rintro ⟨r, w, t, ⟨v, h1, h2, h3⟩, -⟩
  cases h2 with
  | cons hd _ =>
    have h4 : 'R' :: ['1', ' ', 'a', ' ', 'b'] = _ := h1
    simp only [List.cons_append, List.cons.injEq] at h4
    rw [← h4.1] at hd
    exact absurd (eqc_mark true 'R' '.' (by decide) hd) (by decide)

/-- `.endl y` ends section `x`: the second resistor is lost -/
example : Runs (book [lineLib, lineR, lineEndl, lineR]) (.line none [] (pre true lineUse) lineUse []) (blankState [])
    (.ok, [], blankState [.elem none [] lineR]) := by
  refine endl_of_another_wrong (book [lineLib, lineR, lineEndl, lineR]) (book_sane _) none [] ['f'] ['x'] lineUse lineLib lineEndl [lineR] [lineR] []
    (blankState []) _ use_use ⟨[' ', 'x'], ['x'], [], ⟨dLib, by decide, same_refl _ _, rfl⟩, by decide, same_refl _ _, rfl⟩
    ⟨[' ', 'y'], dEndl, by decide, same_refl _ _, rfl⟩ ?_ (by decide) (.seq (b := []) r_inside (.card r_card) .done)
  intro h hh
  simp only [List.mem_cons, List.not_mem_nil, or_false] at hh
  subst hh
  rintro ⟨r, w, t, ⟨v, h1, h2, h3⟩, -⟩
  cases h2 with
  | cons hd _ =>
    have h4 : 'R' :: ['1', ' ', 'a', ' ', 'b'] = _ := h1
    simp only [List.cons_append, List.cons.injEq] at h4
    rw [← h4.1] at hd
    exact absurd (eqc_mark true 'R' '.' (by decide) hd) (by decide)

/-- `< f` of an empty file: the resistor behind it is not read -/
example : Runs (book []) (.body none [] keyEnd false [['<', ' ', 'f'], lineR]) (blankState []) (.ok, [lineR], blankState []) :=
  empty_file_wrong (book []) (book_sane _) none [] keyEnd (isKey_end _) ['<', ' ', 'f'] [' '] ['f'] [] (by decide)
    (inside_of true _ ['<'] [' ', 'f'] (by decide) (by decide) (by decide) (by decide)) (spaces_one _ (by simp)).1 (by simp) (by intro c hc; cases hc)
    f_plain (by decide) _ (by decide) _

/-- `<clear` clears, `!clear` too, and `Bclear 1 0` too -/
theorem clears_anyway (dev : List Char → Bool) (hdev : dev ['B'] = false) :
    kind true dev (fun _ => false) (pre true ['<', 'c', 'l', 'e', 'a', 'r']) ['<', 'c', 'l', 'e', 'a', 'r'] = .cmd ∧
    kind true dev (fun _ => false) (pre true ['!', 'c', 'l', 'e', 'a', 'r']) ['!', 'c', 'l', 'e', 'a', 'r'] = .cmd ∧
    kind true dev (fun _ => false) (pre true ['B', 'c', 'l', 'e', 'a', 'r', ' ', '1', ' ', '0']) ['B', 'c', 'l', 'e', 'a', 'r', ' ', '1', ' ', '0'] = .cmd := by
  have hn : (['c', 'l', 'e', 'a', 'r'], 17) ∈ pairs := by decide +kernel
  have hclear : Clear true (fun _ => false) := fun n h => (Bool.false_ne_true h).elim
  refine ⟨?_, ?_, ?_⟩
  · rw [glued_wrong true dev _ '<' (by simp) _ ['c', 'l', 'e', 'a', 'r'] _ [] 17 hn (by decide) (.inl rfl) (by decide) rfl hclear]
    exact kindOf_other _ 17 hn (by decide) _
  · rw [glued_wrong true dev _ '!' (by simp) _ ['c', 'l', 'e', 'a', 'r'] _ [] 17 hn (by decide) (.inl rfl) (by decide) rfl hclear]
    exact kindOf_other _ 17 hn (by decide) _
  · rw [letter_b_wrong dev _ hdev rfl 'B' (.inr rfl) _ ['c', 'l', 'e', 'a', 'r'] _ [' ', '1', ' ', '0'] 17 hn (by decide) (.inl rfl) ?_ (by decide) (by decide)]
    · exact kindOf_other _ 17 hn (by decide) _
    · have hb : ∀ e ∈ pairs, e.1 ≠ ['b', 'c', 'l', 'e', 'a', 'r'] ∧ e.1 ≠ ['B', 'c', 'l', 'e', 'a', 'r'] := by decide +kernel
      rintro ⟨n, i, hi, h | ⟨-, h⟩⟩
      · exact (hb _ hi).2 h.symm
      · exact (hb _ hi).1 (by simp only; rw [← h]; decide)

/-- with a card named `ac` in the circuit, `.ac` is an instance -/
example : kind true (fun _ => false) (fun n => n == ['a', 'c']) (pre true lineAc) lineAc = .elem :=
  shadow_wrong true _ _ lineAc ['a', 'c'] ['a', 'c'] [' ', '1'] 48 (by decide +kernel) (by decide) (.inl rfl)
    (by
      rintro ⟨n, i, hn, h | ⟨-, h⟩⟩
      · exact ac_names _ hn h.symm
      · exact ac_names _ hn (by simp only; rw [← h]; decide))
    (by decide) (by decide) (by decide)

/-- a file that is not there: `.inc g` warns, `.include g` fails -/
example : Runs (book []) (.line none [] (pre true ['.', 'i', 'n', 'c', ' ', 'g']) ['.', 'i', 'n', 'c', ' ', 'g'] [lineR]) (blankState [])
      (.ok, [lineR], blankState [.warn ['.', 'i', 'n', 'c', ' ', 'g']]) ∧
    Runs (book []) (.line none [] (pre true ['.', 'i', 'n', 'c', 'l', 'u', 'd', 'e', ' ', 'g']) ['.', 'i', 'n', 'c', 'l', 'u', 'd', 'e', ' ', 'g'] [lineR]) (blankState []) (.nofile, [lineR], blankState []) :=
  inc_other_wrong (book []) (book_sane _) none [] ['.', 'i', 'n', 'c', ' ', 'g'] ['.', 'i', 'n', 'c', 'l', 'u', 'd', 'e', ' ', 'g'] ['i', 'n', 'c'] [' '] ['g'] [] [lineR] (blankState [])
    (.inl rfl) (by decide) (spaces_one _ (by simp)).1 (by simp) (by intro c hc; cases hc) ⟨by decide, by decide, by decide, by decide, by decide⟩ (by decide)
    (by decide) ⟨⟨by decide, by decide, by decide, by decide, by decide⟩, by simp, [], by simp, .done, by decide, _, .inl rfl, [[' ']], [], rfl, spaces_one, (by intro c hc; cases hc), by decide⟩
    (by decide) (by decide) (by decide)

theorem spaces_nil : Spaces [] := by intro c hc; cases hc

/-- `.get f`: the circuit is cleared, the first line is the title, the resistor is read -/
example : Runs (book [lineAc, lineR]) (.line none [] (pre true ['.', 'g', 'e', 't', ' ', 'f']) ['.', 'g', 'e', 't', ' ', 'f'] [lineR]) (blankState [])
    (.ok, [lineR], blankState [.clear [], .title lineAc, .elem none [] lineR]) := by
  have hg : Get true ['f'] [] ['.', 'g', 'e', 't', ' ', 'f'] :=
    ⟨f_plain, by simp, [], by simp, .done, by decide, _, .inl rfl, [[' ']], [], rfl, spaces_one, spaces_nil, by decide⟩
  have hl : Means (book [lineAc, lineR]) none [] (.lines [lineR]) (State.inMode .preset (blankState [.clear [], .title lineAc])) .ok
      (State.inMode .preset (blankState [.clear [], .title lineAc, .elem none [] lineR])) := .seq (b := []) r_inside (.card r_card) .done
  have h := Means.get (c := book [lineAc, lineR]) (o := none) (L := []) (st := blankState []) hg rfl
    (.titled (h := lineAc) (fl := [lineR]) (by decide) rfl (.all (body := [lineR]) (tail := []) (.inl rfl) hl))
  exact ((means_runs _ (book_sane _) none [] _ _ _ _ h).2 _ [] rfl).1 rfl [lineR]

/-- `< < f`: the same, and the commands of the file are run -/
example : Runs (book [lineR, lineAc]) (.line none [] (pre true ['<', ' ', '<', ' ', 'f']) ['<', ' ', '<', ' ', 'f'] []) (blankState [])
    (.ok, [], blankState [.clear [], .title lineR, .cmd [] lineAc]) := by
  have hg : Script true [[' ']] ['f'] [] ['<', ' ', '<', ' ', 'f'] :=
    ⟨f_plain, by decide, by simp, [], by simp, .done, [' '], (spaces_one _ (by simp)).1, by simp, fun m hm => (spaces_one m hm).1, [], [], rfl, by simp, spaces_nil, by decide⟩
  have hl : Means (book [lineR, lineAc]) none [] (.lines [lineAc]) (State.inMode .script (blankState [.clear [], .title lineR])) .ok
      (State.inMode .script (blankState [.clear [], .title lineR, .cmd [] lineAc])) := .seq (b := []) ac_inside (.order ac_order) .done
  have h := Means.script (c := book [lineR, lineAc]) (o := none) (L := []) (st := blankState []) hg (.succ rfl .zero)
    (.titled (h := lineR) (fl := [lineAc]) (by decide) rfl (.all (body := [lineAc]) (tail := []) (.inl rfl) hl))
  exact ((means_runs _ (book_sane _) none [] _ _ _ _ h).2 _ [] rfl).1 rfl []

/-- `<< f`: nothing is cleared -/
example : Runs (book [lineR, lineAc]) (.line none [] (pre true ['<', '<', ' ', 'f']) ['<', '<', ' ', 'f'] []) (blankState [])
    (.ok, [], blankState [.title lineR, .cmd [] lineAc]) := by
  have hl : Means (book [lineR, lineAc]) none [] (.lines [lineAc]) (State.inMode .script (blankState [.title lineR])) .ok
      (State.inMode .script (blankState [.title lineR, .cmd [] lineAc])) := .seq (b := []) ac_inside (.order ac_order) .done
  exact double_mark_wrong (book [lineR, lineAc]) (book_sane _) none [] ['<', '<', ' ', 'f'] [' '] ['f'] [] [] (blankState []) _ .ok (by decide)
    (spaces_one _ (by simp)).1 (by simp) spaces_nil f_plain (by decide)
    (.titled (h := lineR) (fl := [lineAc]) (by decide) rfl (.all (body := [lineAc]) (tail := []) (.inl rfl) hl))

/-- `.build`, up to a blank line -/
example : Runs (book []) (.line none [] (pre true ['.', 'b', 'u', 'i', 'l', 'd']) ['.', 'b', 'u', 'i', 'l', 'd'] [lineR, [' '], lineAc]) (blankState [])
    (.ok, [lineAc], blankState [.elem none [] lineR]) := by
  have hb : Build true ['.', 'b', 'u', 'i', 'l', 'd'] := ⟨['.', 'b', 'u', 'i', 'l', 'd'], [], .inl rfl, by decide, rfl⟩
  have hl : Means (book []) none [] (.lines [lineR]) (State.inMode .preset (blankState [])) .ok (State.inMode .preset (blankState [.elem none [] lineR])) :=
    .seq (b := []) r_inside (.card r_card) .done
  have h := Means.build (c := book []) (o := none) (L := []) (st := blankState []) (body := [lineR]) (e := [' ']) hb (by decide) (.inl (by decide)) hl
  exact ((means_runs _ (book_sane _) none [] _ _ _ _ h).2 _ _ rfl).1 rfl [lineAc]

theorem r_bare : ∀ l ∈ [lineR], Bare l := by
  intro l hl x r hx
  simp only [List.mem_cons, List.not_mem_nil, or_false] at hl
  subst hl
  have : 'R' :: ['1', ' ', 'a', ' ', 'b'] = x :: r := hx
  simp only [List.cons.injEq] at this
  rw [← this.1]
  exact ⟨by decide, fun h => absurd h (by decide)⟩

/-- `.inc f`: a file -/
example : Runs (book [lineR]) (.line none [] (pre true ['.', 'i', 'n', 'c', ' ', 'f']) ['.', 'i', 'n', 'c', ' ', 'f'] []) (blankState [])
    (.ok, [], blankState [.elem none [] lineR]) := by
  have hi : Inc true ['i', 'n', 'c'] ['f'] ['.', 'i', 'n', 'c', ' ', 'f'] := ⟨f_plain, .inl rfl, [' '], [], (spaces_one _ (by simp)).1, by simp, spaces_nil, by decide⟩
  have hl : Means (book [lineR]) none [] (.lines [lineR]) (blankState []) .ok (blankState [.elem none [] lineR]) := .seq (b := []) r_inside (.card r_card) .done
  have h := Means.inc (c := book [lineR]) (o := none) (L := []) (st := blankState []) hi rfl rfl (by decide) r_bare hl (by simp)
  exact ((means_runs _ (book_sane _) none [] _ _ _ _ h).2 _ [] rfl).1 rfl []

/-- `.inc f`, and the file names one that is not there: the resistor in it is lost -/
example : Runs (book [['.', 'i', 'n', 'c', 'l', 'u', 'd', 'e', ' ', 'g'], lineR])
    (.line none [] (pre true ['.', 'i', 'n', 'c', ' ', 'f']) ['.', 'i', 'n', 'c', ' ', 'f'] [lineAc]) (blankState [])
    (.ok, [lineAc], blankState [.warn ['.', 'i', 'n', 'c', ' ', 'f']]) := by
  refine inc_nested_wrong (book [['.', 'i', 'n', 'c', 'l', 'u', 'd', 'e', ' ', 'g'], lineR]) (book_sane _) none [] ['.', 'i', 'n', 'c', ' ', 'f']
    ['.', 'i', 'n', 'c', 'l', 'u', 'd', 'e', ' ', 'g'] ['i', 'n', 'c'] ['f'] ['g'] [lineR] [lineAc] (blankState [])
    ⟨f_plain, .inl rfl, [' '], [], (spaces_one _ (by simp)).1, by simp, spaces_nil, by decide⟩ rfl rfl (by decide)
    ⟨⟨by decide, by decide, by decide, by decide, by decide⟩, by simp, [], by simp, .done, by decide, _, .inl rfl, [[' ']], [], rfl, spaces_one, spaces_nil, by decide⟩
    (inside_of true _ ['.', 'i', 'n', 'c', 'l', 'u', 'd', 'e'] [' ', 'g'] (by decide) (by decide) (by decide) (by decide)) ?_ (by decide) rfl
  intro l hl
  rcases List.mem_cons.mp hl with rfl | hl
  · intro x r hx
    have : '.' :: ['i', 'n', 'c', 'l', 'u', 'd', 'e', ' ', 'g'] = x :: r := hx
    simp only [List.cons.injEq] at this
    rw [← this.1]
    exact ⟨by decide, fun h => absurd h (by decide)⟩
  · exact r_bare l hl

/-- a directory that is entered; no instance can be made -/
def dirs : Cfg (List Event) := { book [lineR] with enter := fun d _ => '/' :: d, act := fun _ _ x => (.failed, x) }

/-- ``.`include f``, and an instance that fails: the directory is another -/
example : Runs dirs (.line none [] (pre true ['.', '`', 'i', 'n', 'c', 'l', 'u', 'd', 'e', ' ', 'f']) ['.', '`', 'i', 'n', 'c', 'l', 'u', 'd', 'e', ' ', 'f'] []) (blankState [])
    (.failed, [], ⟨.batch, ['/'], []⟩) := by
  refine include_dir_wrong dirs ⟨fun _ _ n h => (Bool.false_ne_true h).elim, fun _ _ _ h => by cases h⟩ none [] _ ['f'] [lineR] [] (blankState []) _ .failed ?_ (by decide) r_bare ?_ (by simp) (by simp)
  · exact ⟨f_plain, _, [' '], [], .inl rfl, (spaces_one _ (by simp)).1, by simp, spaces_nil, by decide⟩
  · exact .stop (b := []) (ls := []) r_inside (.card r_card) (by decide)

/-- `.include f x y`: `y` is warned of -/
example : Runs (book [lineLib, lineR]) (.line none [] (pre true (lineInc ++ [' ', 'x', ' ', 'y'])) (lineInc ++ [' ', 'x', ' ', 'y']) []) (blankState [])
    (.ok, [], blankState [.warn ['y'], .elem none [] lineR]) :=
  more_warned (book [lineLib, lineR]) (book_sane _) none [] ['.', 'i', 'n', 'c', 'l', 'u', 'd', 'e'] [' '] ['f'] [' '] ['x'] [' '] ['y'] 'y' [] _ [lineLib, lineR] [] [[lineR]]
    (blankState []) (blankState [.warn ['y']]) _ .ok (.inl rfl) (by decide) (spaces_one _ (by simp)).1 (by simp) f_plain (spaces_one _ (by simp)).1 (by simp) x_section
    (spaces_one _ (by simp)).1 (by simp) rfl (by decide) (by decide) rfl (by decide)
    (.last ⟨[' ', 'x'], ['x'], [], ⟨dLib, by decide, same_refl _ _, rfl⟩, by decide, same_refl _ _, rfl⟩)
    (.eachSeq (.seq (b := []) r_inside (.card r_card) .done) .eachDone)

/-- `.lib f quiet section x noecho`: section `x` -/
example : mergeArgs true ['f', ' ', 'q', 'u', 'i', 'e', 't', ' ', 's', 'e', 'c', 't', 'i', 'o', 'n', ' ', 'x', ' ', 'n', 'o', 'e', 'c', 'h', 'o'] = some (['f'], ['x'], []) := by
  refine mergeArgs_asks true ['f'] [([' '], ['q', 'u', 'i', 'e', 't']), ([' '], ['s', 'e', 'c', 't', 'i', 'o', 'n']), ([' '], ['x']), ([' '], ['n', 'o', 'e', 'c', 'h', 'o'])] [] ['x'] f_plain
    ⟨?_, ?_, spaces_nil⟩ (.flag (k := ['q', 'u', 'i', 'e', 't']) (by simp) (same_refl _ _) (.sec (same_refl _ _) (.noFlag (k := ['e', 'c', 'h', 'o']) (by simp) (same_refl _ _) .done)))
  · intro e he
    refine spaces_one e.1 ?_
    simp only [List.mem_cons, List.not_mem_nil, or_false] at he ⊢
    rcases he with rfl | rfl | rfl | rfl <;> rfl
  · intro e he
    simp only [List.mem_cons, List.not_mem_nil, or_false] at he
    rcases he with rfl | rfl | rfl | rfl <;> exact ⟨by decide, by decide, by decide, by decide, by decide⟩

/-- reading ends the same way, and in the same mode, for a file merged -/
example (o o' : Out (List Event)) (h : Runs (book [lineR]) (.body none [] keyEnd false [lineInc]) (blankState []) o)
    (h' : Runs (book [lineR]) (.body none [] keyEnd false [lineInc]) (blankState []) o') : o = o' ∧ o.2.2.mode = .batch :=
  ⟨runs_unique _ _ _ _ _ h h', by obtain ⟨n, hn⟩ := h; exact mode_kept _ n _ _ _ hn⟩

end Gnucap.Files
