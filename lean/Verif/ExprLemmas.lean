import Verif.ExprModel
import Verif.ScanProps
import Mathlib.Tactic.Linarith

/-!
# Lemmas on reading expressions: operators in the text, fuel, progress
-/
namespace Gnucap.Expr
open Gnucap.Scan Gnucap.Num

/-! ## operators -/

/-- neither a letter nor special in patterns -/
def plain (c : Char) : Bool := !special c && !((65 ≤ c.toNat && c.toNat ≤ 90) || (97 ≤ c.toNat && c.toNat ≤ 122))

theorem toLower_plain (c : Char) (h : plain c = true) : c.toLower = c := by
  unfold Char.toLower
  split
  · rename_i hc
    exfalso
    have h3 : 65 ≤ c.toNat ∧ c.toNat ≤ 90 := ⟨UInt32.le_iff_toNat_le.mp hc.1, UInt32.le_iff_toNat_le.mp hc.2⟩
    simp only [plain, Bool.and_eq_true, Bool.not_eq_true', Bool.or_eq_false_iff, Bool.and_eq_false_iff, decide_eq_false_iff_not] at h
    omega
  · rfl

theorem toLower_eq_plain (c d : Char) (hd : plain d = true) (h : c.toLower = d) : c = d := by
  unfold Char.toLower at h
  split at h
  · rename_i hc
    exfalso
    have h3 : 65 ≤ c.val.toNat ∧ c.val.toNat ≤ 90 := ⟨UInt32.le_iff_toNat_le.mp hc.1, UInt32.le_iff_toNat_le.mp hc.2⟩
    have h2 : (c.val + 32).toNat = d.toNat := congrArg Char.toNat h
    rw [UInt32.toNat_add, show (32 : UInt32).toNat = 32 from rfl] at h2
    have h5 : d.toNat = c.val.toNat + 32 := by rw [← h2]; omega
    simp only [plain, Bool.and_eq_true, Bool.not_eq_true', Bool.or_eq_false_iff, Bool.and_eq_false_iff, decide_eq_false_iff_not] at hd
    omega
  · exact h

theorem eqc_plain (ci : Bool) (d c : Char) (h : plain c = true) : eqc ci d c = decide (d = c) := by
  unfold eqc
  by_cases e : d = c
  · simp [e]
  · have : d.toLower ≠ c.toLower := by
      rw [toLower_plain c h]
      exact fun h2 => e (toLower_eq_plain d c h h2)
    simp [e, this]

/-- the text after `a` -/
def strip : List Char → List Char → Option (List Char)
  | [], s => some s
  | _ :: _, [] => none
  | p :: a, d :: t => if d = p then strip a t else none

theorem strip_eq (a s r : List Char) (h : strip a s = some r) : s = a ++ r := by
  induction a generalizing s with
  | nil => simp only [strip, Option.some.injEq] at h; simpa using h
  | cons p a ih =>
    cases s with
    | nil => cases h
    | cons d t =>
      simp only [strip] at h
      split at h
      · rename_i e; rw [e, ih t h, List.cons_append]
      · cases h

theorem strip_append (a r : List Char) : strip a (a ++ r) = some r := by
  induction a with
  | nil => rfl
  | cons p a ih => simp only [List.cons_append, strip, if_true]; exact ih

/-- the first alternative is looked for at the cursor after blanks, the others where the match began -/
def matchAlts (start : List Char) : List (List Char) → List Char → Option (List Char)
  | [], _ => none
  | a :: l, inp => match strip a inp with
    | some r => some r
    | none => matchAlts start l start

def bars : List (List Char) → List Char
  | [] => []
  | [a] => a
  | a :: b :: r => a ++ '|' :: bars (b :: r)

theorem segText_lits (a : List Char) : segText (a.map .lit) = a := by
  induction a with
  | nil => rfl
  | cons c a ih => simp only [segText, List.map_cons, List.flatMap_cons, Seg.text] at ih ⊢; rw [ih]; rfl

theorem segMatch_strip (ci : Bool) (a inp : List Char) (h : ∀ c ∈ a, plain c = true) : segMatch ci (a.map .lit) inp = strip a inp := by
  induction a generalizing inp with
  | nil => rfl
  | cons c a ih =>
    cases inp with
    | nil => rfl
    | cons d t =>
      simp only [List.map_cons, segMatch, strip]
      rw [eqc_plain ci d c (h c (by simp)), ih t (fun x hx => h x (by simp [hx]))]
      by_cases e : d = c <;> simp [e]

theorem plain_wf (a : List Char) (h : ∀ c ∈ a, plain c = true) : ∀ s ∈ a.map Seg.lit, s.wf = true := by
  intro s hs
  obtain ⟨c, hc, rfl⟩ := List.mem_map.1 hs
  have := h c hc
  simp only [plain, Bool.and_eq_true] at this
  exact this.1

theorem umatchGo_plain (ci : Bool) (alts : List (List Char)) (hne : alts ≠ []) (h : ∀ a ∈ alts, ∀ c ∈ a, plain c = true)
    (start inp : List Char) :
    umatchGo ci (bars alts) false start inp = match matchAlts start alts inp with
      | some r => .ok r
      | none => .fail := by
  induction alts generalizing inp with
  | nil => exact absurd rfl hne
  | cons a l ih =>
    have ha := h a (by simp)
    cases l with
    | nil =>
      have e : bars [a] = segText (a.map .lit) ++ tailText none := by simp [bars, segText_lits, tailText]
      rw [e, go_segs ci _ none start inp (plain_wf a ha), segMatch_strip ci a inp ha]
      simp only [matchAlts]
      cases strip a inp <;> rfl
    | cons b r =>
      have e : bars (a :: b :: r) = segText (a.map .lit) ++ tailText (some (bars (b :: r))) := by simp [bars, segText_lits, tailText]
      rw [e, go_segs ci _ _ start inp (plain_wf a ha), segMatch_strip ci a inp ha]
      rw [show matchAlts start (a :: b :: r) inp = (match strip a inp with
        | some r => some r
        | none => matchAlts start (b :: r) start) from rfl]
      cases strip a inp with
      | some x => rfl
      | none => simp only [onFail]; rw [ih (by simp) (fun x hx => h x (by simp at hx ⊢; exact Or.inr hx))]

theorem pats : patUnary = bars [['-'], ['+'], ['!']] ∧ patTerm = bars [['*'], ['/'], ['%']] ∧ patAdd = bars [['+'], ['-']] ∧
    patLogical = bars [['<', '='], ['<'], ['>', '='], ['>'], ['=', '='], ['!', '=']] ∧ patAnd = bars [['&', '&']] ∧
    patQuest = bars [['?']] := by decide

/-- the operators of a level -/
def altsUnary : List (List Char) := [['-'], ['+'], ['!']]
def altsTerm : List (List Char) := [['*'], ['/'], ['%']]
def altsAdd : List (List Char) := [['+'], ['-']]
def altsLogical : List (List Char) := [['<', '='], ['<'], ['>', '='], ['>'], ['=', '='], ['!', '=']]
def altsAnd : List (List Char) := [['&', '&']]
def altsQuest : List (List Char) := [['?']]

theorem skipbl_le (s : List Char) : (skipbl s).length ≤ s.length := by
  induction s with
  | nil => simp [skipbl]
  | cons c r ih => unfold skipbl; split <;> simp <;> omega

theorem skipcom_le (s : List Char) : (skipcom s).length ≤ s.length := by
  unfold skipcom
  have h := skipbl_le s
  split
  · rename_i r e
    rw [e] at h; simp at h
    have := skipbl_le r; omega
  · exact h

theorem skip1b_lt (c : Char) (s r : List Char) (h : skip1b c s = (true, r)) : r.length < s.length := by
  unfold skip1b at h
  have hs := skipbl_le s
  cases e : skipbl s with
  | nil => rw [e] at h; cases h
  | cons d t =>
    rw [e] at h hs
    simp only at h
    split at h
    · cases h; have := skipbl_le t; simp at hs; omega
    · cases h

theorem skip1b_le (c : Char) (s r : List Char) (h : skip1b c s = (false, r)) : r.length ≤ s.length := by
  unfold skip1b at h
  have hs := skipbl_le s
  cases e : skipbl s with
  | nil => rw [e] at h; cases h; simp
  | cons d t =>
    rw [e] at h hs
    simp only at h
    split at h
    · cases h
    · cases h; exact hs

theorem matchAlts_lt (start : List Char) (alts : List (List Char)) (h : ∀ a ∈ alts, a ≠ []) (inp r : List Char)
    (hi : inp.length ≤ start.length) (hm : matchAlts start alts inp = some r) : r.length < start.length := by
  induction alts generalizing inp with
  | nil => cases hm
  | cons a l ih =>
    simp only [matchAlts] at hm
    cases hs : strip a inp with
    | some x =>
      rw [hs] at hm
      have := strip_eq a inp x hs
      obtain rfl : x = r := Option.some.inj hm
      have ha : 0 < a.length := List.length_pos_iff.2 (h a (by simp))
      rw [this] at hi; simp at hi; omega
    | none =>
      rw [hs] at hm
      exact ih (fun x hx => h x (by simp [hx])) start le_rfl hm

theorem umatchName_lt (ci : Bool) (alts : List (List Char)) (hne : alts ≠ []) (h : ∀ a ∈ alts, ∀ c ∈ a, plain c = true)
    (h0 : ∀ a ∈ alts, a ≠ []) (s n r : List Char) (hm : umatchName ci (bars alts) s = some (n, r)) : r.length < s.length := by
  unfold umatchName at hm
  rw [umatchGo_plain ci alts hne h] at hm
  cases e : matchAlts s alts (skipbl s) with
  | none => rw [e] at hm; cases hm
  | some x =>
    rw [e] at hm
    cases hm
    have := matchAlts_lt s alts h0 _ x (skipbl_le s) e
    exact lt_of_le_of_lt (skipcom_le x) this

/-- what the pattern of `||` takes -/
def orMatch : List Char → Option (List Char)
  | [] => none
  | [d] => if d = '\\' then some [] else none
  | d :: e :: t => if d = '\\' then some (e :: t) else if d = '|' then if e = '|' ∨ e = '\\' then some t else none else none

theorem go_esc_hit (ci : Bool) (c : Char) (q start t : List Char) :
    umatchGo ci ('\\' :: c :: q) false start (c :: t) = umatchGo ci q false start t := by
  rw [umatchGo]
  simp

theorem go_bar (ci : Bool) (q start inp : List Char) : umatchGo ci ('|' :: q) false start inp = .ok inp := by
  rw [umatchGo]; simp

theorem eqc_backslash (ci : Bool) (d : Char) : eqc ci d '\\' = decide (d = '\\') := by
  unfold eqc
  by_cases e : d = '\\'
  · simp [e]
  · have : d.toLower ≠ '\\' := by
      intro h
      unfold Char.toLower at h
      split at h
      · rename_i hc
        have h3 : 65 ≤ d.val.toNat ∧ d.val.toNat ≤ 90 := ⟨UInt32.le_iff_toNat_le.mp hc.1, UInt32.le_iff_toNat_le.mp hc.2⟩
        have h2 : (d.val + 32).toNat = ('\\').toNat := congrArg Char.toNat h
        rw [UInt32.toNat_add, show (32 : UInt32).toNat = 32 from rfl, show ('\\').toNat = 92 from rfl] at h2
        omega
      · exact e h
    have h2 : ('\\' : Char).toLower = '\\' := by decide
    simp [e, h2, this]

def bsMatch : List Char → Scan.Res
  | [] => .fail
  | d :: t => if d = '\\' then .ok t else .fail

theorem go_esc_miss (ci : Bool) (q start inp : List Char) (h : inp.head? ≠ some '|') :
    umatchGo ci ('\\' :: '|' :: q) false start inp = bsMatch inp := by
  rw [umatchGo]
  have hne : ('\\' : Char) ≠ '|' := by decide
  simp only [hne, if_false, List.head?_cons, h, and_false, Bool.false_eq_true, false_and,
    show (('\\' : Char) = '{') = False by simp, show (('\\' : Char) = ' ') = False by simp]
  cases inp with
  | nil => simp [afterBar, bsMatch]
  | cons d t =>
    simp only [ne_eq, reduceCtorEq, not_false_eq_true, List.headD_cons, List.tail_cons, true_and, eqc_backslash, decide_eq_true_eq]
    by_cases e : d = '\\'
    · subst e; simp only [if_true, bsMatch]; rw [go_bar]
    · simp only [e, if_false, bsMatch]
      simp [afterBar]

theorem umatchGo_or (ci : Bool) (start inp : List Char) :
    umatchGo ci patOr false start inp = match orMatch inp with
      | some r => .ok r
      | none => .fail := by
  unfold patOr
  by_cases h : inp.head? = some '|'
  · cases inp with
    | nil => cases h
    | cons d t =>
      simp only [List.head?_cons, Option.some.injEq] at h
      subst h
      rw [go_esc_hit]
      by_cases h2 : t.head? = some '|'
      · cases t with
        | nil => cases h2
        | cons d t =>
          simp only [List.head?_cons, Option.some.injEq] at h2
          subst h2
          rw [go_esc_hit, umatchGo]
          rfl
      · rw [go_esc_miss ci _ _ _ h2]
        cases t with
        | nil => simp [orMatch, bsMatch]
        | cons d t =>
          simp only [List.head?_cons, Option.some.injEq] at h2
          by_cases e : d = '\\' <;> simp [orMatch, bsMatch, e, h2]
  · rw [go_esc_miss ci _ _ _ h]
    cases inp with
    | nil => rfl
    | cons d t =>
      simp only [List.head?_cons, Option.some.injEq] at h
      by_cases e : d = '\\' <;> cases t <;> simp [orMatch, bsMatch, e, h]

theorem umatchName_or_lt (ci : Bool) (s n r : List Char) (hm : umatchName ci patOr s = some (n, r)) : r.length < s.length := by
  unfold umatchName at hm
  rw [umatchGo_or] at hm
  have hl := skipbl_le s
  cases e : orMatch (skipbl s) with
  | none => rw [e] at hm; cases hm
  | some x =>
    rw [e] at hm
    cases hm
    refine lt_of_le_of_lt (skipcom_le x) (lt_of_lt_of_le ?_ hl)
    generalize skipbl s = u at e
    match u, e with
    | [], e => cases e
    | [d], e =>
      simp only [orMatch] at e
      split at e <;> cases e
      simp
    | d :: c :: t, e =>
      simp only [orMatch] at e
      repeat' split at e
      all_goals cases e
      all_goals simp only [List.length_cons]; omega

end Gnucap.Expr
