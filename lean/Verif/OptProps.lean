import Verif.OptNames

/-!
# The options command (C75): it ends, what it keeps, comments
-/
namespace Gnucap.Opt
open Gnucap.Scan Gnucap.Num

/-! ### texts get shorter -/

theorem skipbl_len (s : List Char) : (skipbl s).length ≤ s.length := (Spice.skipbl_suffix s).length_le
theorem skipcom_len (s : List Char) : (skipcom s).length ≤ s.length := (Spice.skipcom_suffix s).length_le

theorem segMatch_len (ci : Bool) : ∀ (p : List Seg) (s r : List Char), segMatch ci p s = some r → r.length ≤ s.length
  | [], s, r, h => by simp [segMatch] at h; subst h; exact le_rfl
  | .lit c :: p, [], r, h => by simp [segMatch] at h
  | .lit c :: p, d :: s, r, h => by
    simp only [segMatch] at h
    split at h
    · have := segMatch_len ci p s r h
      simp only [List.length_cons]; omega
    · cases h
  | .opt o :: p, s, r, h => by
    simp only [segMatch] at h
    have := segMatch_len ci p _ r h
    have h2 := (optDrop_sub ci o s).length_le
    omega
  | .delim :: p, s, r, h => by
    simp only [segMatch] at h
    split at h
    · have := segMatch_len ci p _ r h
      have h2 := skipbl_len s
      omega
    · cases h

/-- a match of one of the patterns consumes something -/
theorem umatch_moves (ci : Bool) (p s r : List Char) (h : sound p = true) (hm : umatch ci p s = .ok r) : r.length < s.length := by
  rw [umatch_sound ci p s h] at hm
  cases hs : segMatch ci (segsOf none p) (skipbl s) with
  | none => rw [hs] at hm; cases hm
  | some t =>
    rw [hs] at hm
    simp only [Scan.Res.ok.injEq] at hm
    subst hm
    have h1 := skipcom_len t
    have h2 := skipbl_len s
    suffices t.length < (skipbl s).length by omega
    simp only [sound, Bool.and_eq_true] at h
    have h3 := h.2
    cases hp : segsOf none p with
    | nil => rw [hp] at h3; simp at h3
    | cons g q =>
      rw [hp] at h3 hs
      cases g with
      | opt _ => simp at h3
      | delim => simp at h3
      | lit c =>
        cases hb : skipbl s with
        | nil => rw [hb] at hs; simp [segMatch] at hs
        | cons d u =>
          rw [hb] at hs
          simp only [segMatch] at hs
          split at hs
          · have := segMatch_len ci q u t hs
            simp only [List.length_cons]; omega
          · cases hs

theorem umatch_not_ub (ci : Bool) (p s : List Char) (h : sound p = true) : umatch ci p s ≠ .ub := by
  rw [umatch_sound ci p s h]
  cases segMatch ci (segsOf none p) (skipbl s) <;> simp

theorem choose_len (ci : Bool) (s : List Char) (z : ℤ) (r : List Char) : ∀ (l : List (List Char × ℤ)),
    (∀ c ∈ l, sound (c.1 ++ [' ']) = true) → choose ci s l = some (z, r) → r.length < s.length ∧ ∃ c ∈ l, c.2 = z
  | [], _, h => by simp [choose] at h
  | c :: l, hs, h => by
    simp only [choose] at h
    split at h
    · rename_i t ht
      simp only [Option.some.injEq, Prod.mk.injEq] at h
      obtain ⟨rfl, rfl⟩ := h
      exact ⟨umatch_moves ci _ s t (hs c (by simp)) ht, c, by simp, rfl⟩
    · obtain ⟨h1, c', h2, h3⟩ := choose_len ci s z r l (fun x hx => hs x (by simp [hx])) h
      exact ⟨h1, c', by simp [h2], h3⟩

theorem ctob_len (ci : Bool) (s : List Char) : (ctob ci s).2.length ≤ s.length := by
  unfold ctob
  have h0 := skipbl_len s
  cases h : choose ci (skipbl s) boolWords with
  | none => simp only; have := skipcom_len (skipbl s); omega
  | some p =>
    obtain ⟨z, r⟩ := p
    have := (choose_len ci (skipbl s) z r boolWords (by simpa using boolWords_sound) h).1
    have := skipcom_len r
    simp only; omega

theorem octDigits_len : ∀ (s : List Char) (v w : ℕ) (r : List Char), octDigits v s = some (w, r) → r.length ≤ s.length ∧ (v ≤ intMax → w ≤ intMax)
  | [], v, w, r, h => by simp [octDigits] at h; obtain ⟨rfl, rfl⟩ := h; exact ⟨le_rfl, id⟩
  | c :: s, v, w, r, h => by
    simp only [octDigits] at h
    split at h
    · split at h
      · cases h
      · rename_i h2
        obtain ⟨a, b⟩ := octDigits_len s _ w r h
        exact ⟨by simp; omega, fun _ => b (by omega)⟩
    · simp at h; obtain ⟨rfl, rfl⟩ := h; exact ⟨le_rfl, id⟩

theorem ctouLoop_len : ∀ (s : List Char) (v : ℕ), (ctouLoop v s).2.length ≤ s.length ∧ (v < 2 ^ 32 → (ctouLoop v s).1 < 2 ^ 32)
  | [], v => ⟨le_rfl, id⟩
  | c :: s, v => by
    simp only [ctouLoop]
    split
    · obtain ⟨a, b⟩ := ctouLoop_len s ((10 * v + digitVal c) % 2 ^ 32)
      exact ⟨by simp only [List.length_cons]; omega, fun _ => b (Nat.mod_lt _ (by norm_num))⟩
    · exact ⟨le_rfl, id⟩

theorem skip1_len (set s r : List Char) (h : skip1 set s = some r) : r.length ≤ s.length := by
  cases s with
  | nil => simp [skip1] at h
  | cons c s =>
    simp only [skip1] at h
    split at h
    · cases h; simp
    · cases h

theorem sign_len (s : List Char) : (sign s).2.length ≤ s.length := by
  unfold sign
  cases h : skip1 ['-'] s with
  | some r => exact skip1_len _ _ _ h
  | none =>
    simp only
    cases h2 : skip1 ['+'] s with
    | some r => exact skip1_len _ _ _ h2
    | none => exact le_rfl

theorem digits_len : ∀ (s : List Char) (v : ℚ), (digits v s).2.length ≤ s.length
  | [], v => le_rfl
  | c :: s, v => by
    simp only [digits]
    split
    · have := digits_len s (10 * v + digitVal c); simp; omega
    · exact le_rfl

theorem fracDigits_len : ∀ (s : List Char) (v p : ℚ), (fracDigits v p s).2.2.length ≤ s.length
  | [], v, p => le_rfl
  | c :: s, v, p => by
    simp only [fracDigits]
    split
    · have := fracDigits_len s (10 * v + digitVal c) (p * (1 / 10)); simp only [List.length_cons]; omega
    · exact le_rfl

theorem expDigits_len : ∀ (s : List Char) (v w : ℕ) (r : List Char), expDigits v s = some (w, r) → r.length ≤ s.length
  | [], v, w, r, h => by simp [expDigits] at h; simp [h.2.symm]
  | c :: s, v, w, r, h => by
    simp only [expDigits] at h
    split at h
    · split at h
      · cases h
      · have := expDigits_len s _ w r h
        simp; omega
    · simp at h; simp [h.2.symm]

theorem iteSkip_len (c : Prop) [Decidable c] (set s r : List Char) (h : (if c then skip1 set s else none) = some r) : r.length ≤ s.length := by
  split at h
  · exact skip1_len _ _ _ h
  · cases h

theorem scale_len (u : Units) (s r : List Char) (f : ℚ) (h : scale u s = some (f, r)) : r.length ≤ s.length := by
  unfold scale at h
  cases h1 : skip1 ['e', 'E'] s with
  | some t =>
    rw [h1] at h
    simp only at h
    obtain ⟨⟨e, q⟩, h2, h3⟩ := Option.map_eq_some_iff.mp h
    simp only [Prod.mk.injEq] at h3
    obtain ⟨-, rfl⟩ := h3
    have a := expDigits_len _ _ _ _ h2
    have b := sign_len t
    have c := skip1_len _ _ _ h1
    omega
  | none =>
    rw [h1] at h
    simp only at h
    cases h2 : (if u = .spice then skip1 ['m', 'M'] s else none) with
    | some t =>
      rw [h2] at h
      simp only at h
      have a := iteSkip_len _ _ _ _ h2
      repeat' split at h
      all_goals
        simp only [Option.some.injEq, Prod.mk.injEq] at h
        obtain ⟨-, rfl⟩ := h
        first
          | exact a
          | exact le_trans (skip1_len _ _ _ (by assumption)) a
    | none =>
      rw [h2] at h
      simp only at h
      repeat' split at h
      all_goals
        simp only [Option.some.injEq, Prod.mk.injEq] at h
        obtain ⟨-, rfl⟩ := h
        first
          | exact le_rfl
          | exact skip1_len _ _ _ (by assumption)

theorem number_len (u : Units) (s r : List Char) (x : ℚ) (h : number u s = some (x, r)) : r.length ≤ s.length := by
  unfold number ctof at h
  have h0 := skipbl_len s
  cases hs : skipbl s with
  | nil => rw [hs] at h; simp at h; rw [← h.2]; have := skipcom_len []; simp at this; simp [this]
  | cons c t =>
    rw [hs] at h h0
    simp only at h
    by_cases hc : isFloat c = true
    · simp only [hc, if_true] at h
      have a1 := sign_len (c :: t)
      have a2 := digits_len (sign (c :: t)).2 0
      have a3 : ((skip1 ['.'] (digits 0 (sign (c :: t)).2).2).getD (digits 0 (sign (c :: t)).2).2).length ≤ (digits 0 (sign (c :: t)).2).2.length := by
        cases h3 : skip1 ['.'] (digits 0 (sign (c :: t)).2).2 with
        | none => exact le_rfl
        | some q => exact skip1_len _ _ _ h3
      have a4 := fracDigits_len ((skip1 ['.'] (digits 0 (sign (c :: t)).2).2).getD (digits 0 (sign (c :: t)).2).2) (digits 0 (sign (c :: t)).2).1 1
      cases h5 : scale u (fracDigits (digits 0 (sign (c :: t)).2).1 1
          ((skip1 ['.'] (digits 0 (sign (c :: t)).2).2).getD (digits 0 (sign (c :: t)).2).2)).2.2 with
      | none => rw [h5] at h; simp at h
      | some p =>
        obtain ⟨f, q⟩ := p
        rw [h5] at h
        simp only [Option.some.injEq, Prod.mk.injEq] at h
        obtain ⟨-, rfl⟩ := h
        have a5 := scale_len u _ _ _ h5
        have a6 := skipcom_len (q.dropWhile isAlpha)
        have a7 := (List.dropWhile_sublist isAlpha (l := q)).length_le
        omega
    · simp only [hc] at h
      simp only [Bool.false_eq_true, if_false, Option.some.injEq, Prod.mk.injEq] at h
      rw [← h.2]
      have := skipcom_len (c :: t)
      omega

theorem skip1b_len (set s : List Char) : (Spice.skip1b set s).2.length ≤ s.length := (Spice.skip1b_suffix set s).length_le

theorem findLang_len (langs : List Lang) (ci : Bool) (s r : List Char) (l : Lang) (h : findLang langs ci s = some (l, r)) :
    r.length ≤ s.length ∧ l ∈ langs := by
  have a := (Spice.word_suffix s).length_le
  have b := skipbl_len s
  unfold findLang at h
  split at h
  · rename_i l' hl
    simp only [Option.some.injEq, Prod.mk.injEq] at h
    obtain ⟨rfl, rfl⟩ := h
    exact ⟨by omega, List.mem_of_find?_eq_some hl⟩
  · split at h
    · obtain ⟨l', h1, h2⟩ := Option.map_eq_some_iff.mp h
      simp only [Prod.mk.injEq] at h2
      obtain ⟨rfl, rfl⟩ := h2
      exact ⟨by omega, List.mem_of_find?_eq_some h1⟩
    · cases h

/-- the text left is not longer than `n` -/
def Out.le (n : ℕ) : Out → Prop
  | .yes _ r => r.length ≤ n
  | .no r => r.length ≤ n
  | .ub => True

/-- the same, and shorter if something was done -/
def Out.lt (n : ℕ) : Out → Prop
  | .yes _ r => r.length < n
  | .no r => r.length ≤ n
  | .ub => True

/-- what is done with the text behind a name does not move back -/
theorem take_len (langs : List Lang) (o : Opts) (e : Entry) (he : e ∈ table) (s : List Char) :
    (take langs o e.var e.kind s).le s.length := by
  have hs := (entry_sound he).2.2
  cases hk : e.kind with
  | flag =>
    simp only [take]
    have a := skip1b_len ['='] s
    split
    · have b := ctob_len o.ci (Spice.skip1b ['='] s).2
      simp only [Out.le]; omega
    · exact a
  | num p =>
    simp only [take]
    cases hn : number o.units s with
    | none => trivial
    | some q => exact number_len _ _ _ _ hn
  | int =>
    simp only [take]
    cases hn : number o.units s with
    | none => trivial
    | some q => simp only; cases toInt q.1 with
      | none => trivial
      | some z => exact number_len _ _ _ _ hn
  | range =>
    simp only [take]
    cases hn : number o.units s with
    | none => trivial
    | some q => simp only; cases toInt q.1 with
      | none => trivial
      | some z => exact number_len _ _ _ _ hn
  | oct =>
    simp only [take]
    cases hn : ctoo s with
    | none => trivial
    | some q =>
      unfold ctoo at hn
      obtain ⟨⟨v, t⟩, h1, h2⟩ := Option.map_eq_some_iff.mp hn
      subst h2
      have a := (octDigits_len _ _ _ _ h1).1
      have b := skipcom_len t
      have c := skipbl_len s
      simp only [Out.le]; omega
  | uns =>
    simp only [take, ctou, Out.le]
    have a := (ctouLoop_len (skipbl s) 0).1
    have b := skipcom_len (ctouLoop 0 (skipbl s)).2
    have c := skipbl_len s
    omega
  | set z => simp [take, Out.le]
  | enm l =>
    simp only [take]
    cases hc : choose o.ci s l with
    | none => exact le_refl s.length
    | some q =>
      have := (choose_len o.ci s q.1 q.2 l (by rw [hk] at hs; exact hs) hc).1
      simp only [Out.le]; omega
  | lang =>
    simp only [take]
    cases hf : findLang langs o.ci s with
    | none => exact le_refl s.length
    | some q => exact (findLang_len langs o.ci s q.2 q.1 hf).1

theorem tryEntry_len (langs : List Lang) (o : Opts) (e : Entry) (he : e ∈ table) (s : List Char) :
    (tryEntry langs o e s).lt s.length := by
  obtain ⟨s1, s2, _⟩ := entry_sound he
  unfold tryEntry
  cases h1 : umatch o.ci e.pattern s with
  | ub => trivial
  | ok r =>
    have a := umatch_moves _ _ _ _ s1 h1
    have b := take_len langs o e he r
    simp only
    cases ht : take langs o e.var e.kind r <;> rw [ht] at b <;> simp only [Out.le, Out.lt] at b ⊢ <;> omega
  | fail =>
    simp only
    split
    · cases h2 : umatch o.ci (['n', 'o'] ++ e.key) s with
      | ok r => exact umatch_moves _ _ _ _ s2 h2
      | fail => exact le_refl s.length
      | ub => trivial
    · exact le_refl s.length

theorem tryAll_len (langs : List Lang) (o : Opts) : ∀ (l : List Entry) (s : List Char), (∀ e ∈ l, e ∈ table) → (tryAll langs o l s).lt s.length
  | [], s, _ => le_refl s.length
  | e :: l, s, h => by
    have a := tryEntry_len langs o e (h e (by simp)) s
    simp only [tryAll]
    cases h1 : tryEntry langs o e s with
    | yes o' r => rw [h1] at a; exact a
    | ub => trivial
    | no r =>
      rw [h1] at a
      have b := tryAll_len langs o l r (fun x hx => h x (by simp [hx]))
      simp only [Out.lt] at a ⊢
      cases ht : tryAll langs o l r <;> rw [ht] at b <;> simp only [Out.lt] at b ⊢ <;> omega

theorem check_len (ci : Bool) (s r : List Char) (h : check ci s = some r) : r.length ≤ (skipbl s).length := by
  unfold check at h
  split at h
  · rename_i t ht
    rw [ht]
    split at h
    · cases h
    · rename_i c u hu
      cases h
      have : sound ['/', '/'] = true := by decide +kernel
      have := umatch_moves ci _ _ _ this hu
      simp at this ⊢; omega
    · cases h; simp
  · rename_i t ht; cases h; rw [ht]; simp
  · rename_i t ht; cases h; rw [ht]; simp
  · cases h; exact le_rfl

theorem skiparg_len (s : List Char) : (skiparg s).length ≤ s.length ∧ (skipbl s ≠ [] → (skiparg s).length < s.length) := by
  have a := skipbl_len s
  unfold skiparg
  cases h : skipbl s with
  | nil => simp
  | cons c r =>
    rw [h] at a
    simp only [List.length_cons] at a
    have b := skipbl_len r
    have c1 := (List.dropWhile_sublist isArg (l := r)).length_le
    have c2 := skipcom_len (r.dropWhile isArg)
    split
    · simp_all
    · rename_i heq
      simp only [List.cons.injEq] at heq
      obtain ⟨rfl, rfl⟩ := heq
      exact ⟨by omega, fun _ => by omega⟩
    · rename_i heq
      simp only [List.cons.injEq] at heq
      obtain ⟨rfl, rfl⟩ := heq
      exact ⟨by omega, fun _ => by omega⟩

theorem check_blank (ci : Bool) (s r : List Char) (h : check ci s = some r) (hs : skipbl s ≠ []) (hr : skipbl r = []) : r.length < (skipbl s).length := by
  have h1 := check_len ci s r h
  rcases Nat.lt_or_ge r.length (skipbl s).length with h2 | h2
  · exact h2
  · exfalso
    unfold check at h
    split at h
    · rename_i t ht
      rw [ht] at h1 h2
      split at h
      · cases h
      · rename_i c u hu
        cases h
        have : sound ['/', '/'] = true := by decide +kernel
        have := umatch_moves ci _ _ _ this hu
        simp at this h2; omega
      · cases h; simp at h2
    · rename_i t ht; cases h; rw [ht] at h2; simp at h2
    · rename_i t ht; cases h; rw [ht] at h2; simp at h2
    · cases h
      rw [Spice.skipbl_idem] at hr
      exact hs hr

/-- every round consumes something, and if it consumes nothing, the text is at its end and nothing is changed -/
theorem round_len (langs : List Lang) (o o' : Opts) (s r : List Char) (h : round langs o s = .yes o' r) :
    r.length ≤ s.length ∧ (skipbl s ≠ [] → r.length < s.length) ∧ (r.length = s.length → o' = o) := by
  have a := tryAll_len langs o table s (fun _ h => h)
  unfold round at h
  cases ht : tryAll langs o table s with
  | ub => rw [ht] at h; cases h
  | yes p t =>
    rw [ht] at h a
    simp only [Out.yes.injEq, Out.lt] at h a
    obtain ⟨rfl, rfl⟩ := h
    exact ⟨by omega, fun _ => a, fun h => by omega⟩
  | no t =>
    rw [ht] at h a
    simp only [Out.lt] at h a
    cases hc : check o.ci t with
    | none => rw [hc] at h; cases h
    | some u =>
      rw [hc] at h
      simp only [Out.yes.injEq] at h
      obtain ⟨rfl, rfl⟩ := h
      have b := check_len o.ci t u hc
      have b2 := skipbl_len t
      obtain ⟨c, d⟩ := skiparg_len u
      refine ⟨by omega, fun hs => ?_, fun _ => rfl⟩
      rcases Nat.lt_or_ge t.length s.length with h1 | h1
      · omega
      · by_cases hu : skipbl u = []
        · by_cases ht0 : skipbl t = []
          · rw [ht0] at b
            have : 0 < s.length := by
              cases s with
              | nil => simp [skipbl] at hs
              | cons _ _ => simp
            simp only [List.length_nil] at b; omega
          · have := check_blank o.ci t u hc ht0 hu
            omega
        · have := d hu
          omega

theorem umatch_blank (ci : Bool) (p s : List Char) (h : sound p = true) (hs : skipbl s = []) : umatch ci p s = .fail := by
  rw [umatch_sound ci p s h, hs]
  simp only [sound, Bool.and_eq_true] at h
  have h3 := h.2
  cases hp : segsOf none p with
  | nil => rw [hp] at h3; simp at h3
  | cons g q =>
    rw [hp] at h3
    cases g with
    | opt _ => simp at h3
    | delim => simp at h3
    | lit c => rfl

theorem tryAll_blank (langs : List Lang) (o : Opts) (s : List Char) (hs : skipbl s = []) : ∀ (l : List Entry), (∀ e ∈ l, e ∈ table) →
    tryAll langs o l s = .no s
  | [], _ => rfl
  | e :: l, h => by
    obtain ⟨s1, s2, _⟩ := entry_sound (h e (by simp))
    have : tryEntry langs o e s = .no s := by
      unfold tryEntry
      rw [umatch_blank _ _ _ s1 hs, umatch_blank _ _ _ s2 hs]
      simp only
      split <;> rfl
    simp only [tryAll, this]
    exact tryAll_blank langs o s hs l (fun x hx => h x (by simp [hx]))

theorem round_blank (langs : List Lang) (o : Opts) (s : List Char) (hs : skipbl s = []) : round langs o s = .yes o [] := by
  unfold round
  rw [tryAll_blank langs o s hs table (fun _ h => h)]
  simp [check, hs, skiparg, skipbl]

/-- **C75, end**: the command ends on every line. -/
theorem loop_ends (langs : List Lang) : ∀ (n : ℕ) (o : Opts) (ch : Bool) (s : List Char), s.length < n → loop langs n o ch s ≠ .running
  | 0, o, ch, s, h => by omega
  | n + 1, o, ch, s, h => by
    simp only [loop]
    cases hr : round langs o s with
    | ub => simp
    | no _ => simp
    | yes o' r =>
      simp only
      split
      · rename_i hc
        obtain ⟨a, b, -⟩ := round_len langs o o' s r hr
        have c := skipbl_len r
        apply loop_ends langs n
        by_cases hs : skipbl s = []
        · exfalso
          rw [round_blank langs o s hs] at hr
          simp only [Out.yes.injEq] at hr
          rw [← hr.2] at hc
          exact hc.1 rfl
        · have := b hs; omega
      · simp

/-! ### what holds of the values -/

/-- the values an `int` option can have (numdgt is cut to 3 to 20 only when a command ends) -/
def lo : Var → ℤ
  | .trsteporder | .order | .mode | .method => 1
  | .phase | .units | .dampstrategy | .diodeflags | .mosflags | .outwidth | .picky => 0
  | _ => -(intMax : ℤ) - 1

def hi : Var → ℤ
  | .trsteporder | .order | .mode | .phase => 3
  | .method => 8
  | .units => 1
  | .picky => 6
  | .outwidth => 2 ^ 32 - 1
  | _ => intMax

/-- the numbers that are read without their sign -/
def isPos (v : Var) : Bool := table.any fun e => decide (e.var = v ∧ e.kind = .num true)

/-- Specification of a sound state: numbers that must not be negative are not, enumerations are in their range -/
structure Sound (langs : List Lang) (o : Opts) : Prop where
  pos : ∀ v, isPos v = true → 0 ≤ o.num v
  int : ∀ v, lo v ≤ o.int v ∧ o.int v ≤ hi v
  lang : ∀ l, o.lang = some l → l ∈ langs

/-- between commands, also the limits fit the tolerance, and `numdgt` is 3 to 20 -/
structure Settled (langs : List Lang) (o : Opts) : Prop extends Sound langs o where
  low : o.lowlim = 1 - o.num .reltol
  up : o.uplim = 1 + o.num .reltol
  digits : 3 ≤ o.int .numdgt ∧ o.int .numdgt ≤ 20

/-- the ranges fit what the entries can set -/
def fits (e : Entry) : Bool :=
  match e.kind with
  | .flag => true
  | .num p => p || !isPos e.var
  | .int => decide (lo e.var ≤ -(intMax : ℤ) - 1 ∧ (intMax : ℤ) ≤ hi e.var)
  | .range => decide (lo e.var ≤ 1 ∧ 3 ≤ hi e.var)
  | .oct => decide (lo e.var ≤ 0 ∧ (intMax : ℤ) ≤ hi e.var)
  | .uns => decide (lo e.var ≤ 0 ∧ 2 ^ 32 - 1 ≤ hi e.var)
  | .set z => decide (lo e.var ≤ z ∧ z ≤ hi e.var)
  | .enm l => l.all fun c => decide (lo e.var ≤ c.2 ∧ c.2 ≤ hi e.var)
  | .lang => true

theorem table_fits : table.all fits = true := by decide +kernel

/-- languages say si or spice -/
def LangsOk (langs : List Lang) : Prop := ∀ l ∈ langs, 0 ≤ l.units ∧ l.units ≤ 1

theorem Sound.setFlag {langs : List Lang} {o : Opts} (h : Sound langs o) (v : Var) (b : Bool) : Sound langs (o.setFlag v b) := ⟨h.pos, h.int, h.lang⟩

theorem Sound.setInt {langs : List Lang} {o : Opts} (h : Sound langs o) (v : Var) (z : ℤ) (hz : lo v ≤ z ∧ z ≤ hi v) :
    Sound langs (o.setInt v z) := by
  refine ⟨h.pos, fun w => ?_, h.lang⟩
  simp only [Opts.setInt]
  split
  · rename_i hw; rw [hw]; exact hz
  · exact h.int w

theorem Sound.setNum {langs : List Lang} {o : Opts} (h : Sound langs o) (v : Var) (x : ℚ) (hx : isPos v = true → 0 ≤ x) :
    Sound langs (o.setNum v x) := by
  refine ⟨fun w hw => ?_, h.int, h.lang⟩
  simp only [Opts.setNum]
  split
  · rename_i he; exact hx (he ▸ hw)
  · exact h.pos w hw

theorem Sound.setLang {langs : List Lang} (hl : LangsOk langs) {o : Opts} (h : Sound langs o) (l : Option Lang) (hm : ∀ x, l = some x → x ∈ langs) :
    Sound langs (o.setLang l) := by
  refine ⟨h.pos, fun w => ?_, hm⟩
  simp only [Opts.setLang, Opts.setInt]
  split
  · rename_i hw
    rw [hw]
    cases l with
    | none => simp [lo, hi]
    | some l => simpa [lo, hi] using hl l (hm l rfl)
  · exact h.int w

theorem toInt_range (x : ℚ) (z : ℤ) (h : toInt x = some z) : -(intMax : ℤ) - 1 ≤ z ∧ z ≤ intMax := by
  unfold toInt at h
  generalize (if x < 0 then ⌈x⌉ else ⌊x⌋) = y at h
  simp only at h
  split at h
  · rename_i hc; cases h; exact hc
  · cases h

theorem take_sound (langs : List Lang) (hl : LangsOk langs) (o o' : Opts) (e : Entry) (he : e ∈ table) (s r : List Char) (h : Sound langs o)
    (ht : take langs o e.var e.kind s = .yes o' r) : Sound langs o' := by
  have hf := List.all_eq_true.mp table_fits e he
  have hs := (entry_sound he).2.2
  unfold fits at hf
  cases hk : e.kind with
  | flag =>
    rw [hk] at ht
    simp only [take] at ht
    split at ht <;> (cases ht; exact h.setFlag _ _)
  | num p =>
    rw [hk] at ht hf
    simp only [take] at ht hf
    split at ht
    · cases ht
      apply h.setNum
      intro hp
      split
      · exact abs_nonneg _
      · rename_i hn
        simp [hn, hp] at hf
    · cases ht
  | int =>
    rw [hk] at ht hf
    simp only [take, decide_eq_true_eq] at ht hf
    split at ht
    · split at ht
      · rename_i z hz
        cases ht
        have := toInt_range _ _ hz
        exact h.setInt _ _ ⟨by omega, by omega⟩
      · cases ht
    · cases ht
  | range =>
    rw [hk] at ht hf
    simp only [take, decide_eq_true_eq] at ht hf
    split at ht
    · split at ht
      · cases ht
        exact h.setInt _ _ ⟨by unfold toRange; omega, by unfold toRange; omega⟩
      · cases ht
    · cases ht
  | oct =>
    rw [hk] at ht hf
    simp only [take, decide_eq_true_eq] at ht hf
    split at ht
    · rename_i z t hz
      cases ht
      unfold ctoo at hz
      obtain ⟨⟨v, u⟩, h1, h2⟩ := Option.map_eq_some_iff.mp hz
      simp only [Prod.mk.injEq] at h2
      have := (octDigits_len _ _ _ _ h1).2 (by omega)
      exact h.setInt _ _ ⟨by omega, by omega⟩
    · cases ht
  | uns =>
    rw [hk] at ht hf
    simp only [take, decide_eq_true_eq] at ht hf
    cases ht
    have := (ctouLoop_len (skipbl s) 0).2 (by norm_num)
    exact h.setInt _ _ ⟨by simp only [ctou]; omega, by simp only [ctou]; omega⟩
  | set z =>
    rw [hk] at ht hf
    simp only [take, decide_eq_true_eq] at ht hf
    cases ht
    exact h.setInt _ _ hf
  | enm l =>
    rw [hk] at ht hf hs
    simp only [take, List.all_eq_true, decide_eq_true_eq] at ht hf
    split at ht
    · rename_i z t hz
      cases ht
      obtain ⟨-, c, hc, rfl⟩ := choose_len o.ci s z r l hs hz
      exact h.setInt _ _ (hf c hc)
    · cases ht
  | lang =>
    rw [hk] at ht
    simp only [take] at ht
    split at ht
    · rename_i l t hz
      cases ht
      exact h.setLang hl _ (fun x hx => by cases hx; exact (findLang_len langs o.ci s r _ hz).2)
    · cases ht
      exact h.setLang hl _ h.lang

theorem tryAll_sound (langs : List Lang) (hl : LangsOk langs) (o o' : Opts) (h : Sound langs o) (r : List Char) : ∀ (l : List Entry) (s : List Char),
    (∀ e ∈ l, e ∈ table) → tryAll langs o l s = .yes o' r → Sound langs o'
  | [], s, _, ht => by simp [tryAll] at ht
  | e :: l, s, hm, ht => by
    have he := hm e (by simp)
    simp only [tryAll] at ht
    have key : ∀ t, tryEntry langs o e s = .yes o' t → Sound langs o' := by
      intro t h1
      unfold tryEntry at h1
      split at h1
      · exact take_sound langs hl o o' e he _ _ h h1
      · cases h1
      · split at h1
        · split at h1
          · cases h1; exact h.setFlag _ _
          · cases h1
          · cases h1
        · cases h1
    cases h1 : tryEntry langs o e s with
    | yes p t => rw [h1] at ht; simp only at ht; rw [ht] at h1; exact key _ h1
    | ub => rw [h1] at ht; cases ht
    | no t =>
      rw [h1] at ht
      exact tryAll_sound langs hl o o' h r l t (fun x hx => hm x (by simp [hx])) ht

theorem round_sound (langs : List Lang) (hl : LangsOk langs) (o o' : Opts) (s r : List Char) (h : Sound langs o) (hr : round langs o s = .yes o' r) :
    Sound langs o' := by
  unfold round at hr
  cases ht : tryAll langs o table s with
  | ub => rw [ht] at hr; cases hr
  | yes p t => rw [ht] at hr; simp only at hr; rw [hr] at ht; exact tryAll_sound langs hl o o' h r table s (fun _ h => h) ht
  | no t =>
    rw [ht] at hr
    simp only at hr
    split at hr
    · cases hr; exact h
    · cases hr

theorem finish_settled (langs : List Lang) (o : Opts) (h : Sound langs o) : Settled langs (finish o true) := by
  have h2 := h.setInt .numdgt (toRange 3 (o.int .numdgt) 20) (by simp only [lo, hi, toRange, intMax]; omega)
  refine ⟨⟨h2.pos, h2.int, h2.lang⟩, rfl, rfl, ?_⟩
  simp only [finish, if_true, Opts.setInt, toRange]
  omega

theorem loop_sound (langs : List Lang) (hl : LangsOk langs) (o' : Opts) (c : Bool) : ∀ (n : ℕ) (o : Opts) (ch : Bool) (s : List Char),
    Sound langs o → (ch = false → Settled langs o) → loop langs n o ch s = .done o' c → Settled langs o'
  | 0, o, ch, s, _, _, hd => by simp [loop] at hd
  | n + 1, o, ch, s, h, h0, hd => by
    simp only [loop] at hd
    cases hr : round langs o s with
    | ub => rw [hr] at hd; cases hd
    | no _ => rw [hr] at hd; cases hd
    | yes p r =>
      rw [hr] at hd
      simp only at hd
      have hp := round_sound langs hl o p s r h hr
      obtain ⟨a, -, b⟩ := round_len langs o p s r hr
      split at hd
      · rename_i hc
        exact loop_sound langs hl o' c n p _ _ hp (fun hf => by rw [hf] at hc; simp at hc) hd
      · cases hd
        cases hch : (ch || decide (r.length < s.length)) with
        | true => exact finish_settled langs p hp
        | false =>
          simp only [Bool.or_eq_false_iff, decide_eq_false_iff_not] at hch
          have : p = o := b (by omega)
          rw [this]
          exact h0 hch.1

/-- **C75, invariant**: after every options command the limits of convergence fit the tolerance, so that `lowlim ≤ 1 ≤ uplim`,
`numdgt` is 3 to 20, enumerations are in their range, `trsteporder` is 1 to 3, and what must not be negative is not. -/
theorem settled_kept (langs : List Lang) (hl : LangsOk langs) (n : ℕ) (o o' : Opts) (s : List Char) (c : Bool) (h : Settled langs o)
    (hd : setValues langs n o s = .done o' c) : Settled langs o' ∧ o'.lowlim ≤ 1 ∧ 1 ≤ o'.uplim := by
  have := loop_sound langs hl o' c n o false s h.toSound (fun _ => h) hd
  have hp : isPos .reltol = true := by decide +kernel
  have := this.pos .reltol hp
  refine ⟨‹_›, ?_, ?_⟩
  · rw [‹Settled langs o'›.low]; linarith
  · rw [‹Settled langs o'›.up]; linarith

theorem initial_settled (langs : List Lang) : Settled langs initial where
  pos v hv := by
    by_cases h : v = .vmin
    · subst h; exact absurd hv (by decide +kernel)
    · cases v <;> first | exact absurd rfl h | (simp only [initial]; norm_num)
  int v := by cases v <;> decide
  lang l h := by cases h
  low := rfl
  up := rfl
  digits := by decide

end Gnucap.Opt
