import Verif.VlogModel
import Verif.SpiceProps
import Mathlib.Data.List.TakeWhile

/-! # Instances, modules and paramsets in the Verilog netlist language (C77) -/
set_option linter.unusedSimpArgs false
namespace Gnucap.Vlog
open Gnucap.Scan Gnucap.Spice Gnucap.Num

/-! ## Specification -/

/-- attributes as they can be listed: none, or a text that begins and ends with something to see, not with a comma, and does not have
the end of attributes in it -/
def AttrOk (a : List Char) : Prop :=
  a = [] ∨ ((∃ c r, a = c :: r ∧ isGraph c = true ∧ c ≠ ',') ∧ (∃ r c, a = r ++ [c] ∧ isGraph c = true) ∧ ¬ ['*', ')'] <:+: a)

/-- a name as it is inside the program, that can be listed and read again, where `stop` stands behind it: a simple name; digits and
letters; or one kept with its backslash, which has a character that is neither -/
def Ident (stop : List Char) (name : List Char) : Prop :=
  (∃ c r, name = c :: r ∧ isDigit c = false ∧ c ≠ '\\' ∧ ∀ d ∈ c :: r, isGraph d = true ∧ d ∉ stop) ∨
  (∃ c r, name = c :: r ∧ isDigit c = true ∧ ∀ d ∈ c :: r, isAlnum d = true) ∨
  (∃ c r, name = '\\' :: c :: r ∧ isGraph c = true ∧ (∀ d ∈ c :: r, isGap d = false) ∧ ∃ d ∈ c :: r, isAlnum d = false)

/-- a parameter that can be listed: parentheses in its value come in pairs -/
structure ParamOk (c : Conn) : Prop where
  attr : AttrOk c.attr
  ne : c.name ≠ []
  graph : ∀ d ∈ c.name, isGraph d = true ∧ d ≠ '('
  value : Nest '(' ')' c.value

/-- a port that can be listed -/
structure PortOk (c : Conn) : Prop where
  attr : AttrOk c.attr
  name : Ident ['('] c.name
  value : Ident [')'] c.value

/-- an instance that can be listed -/
structure Listable (x : Inst) : Prop where
  attr : AttrOk x.attr
  type : Plain x.type
  params : ∀ c ∈ x.params, ParamOk c
  label : Plain x.label
  ports : ∀ c ∈ x.ports, PortOk c

/-- a list is read as one by name unless it is empty -/
def given (l : List Conn) : Given := if l = [] then .ordered [] else .named l

/-! ## The scanner -/

theorem eqc_symbol (ci : Bool) (x a : Char) (ha : a.toNat < 65) : eqc ci x a = (x == a) := by
  unfold eqc
  cases ci with
  | false => simp
  | true =>
    have e1 : a.toLower = a := by
      unfold Char.toLower
      split
      · rename_i h
        have : 65 ≤ a.toNat := UInt32.le_iff_toNat_le.mp h.1
        omega
      · rfl
    rw [e1]
    simp only [Bool.true_and]
    by_cases h : x.toLower = a
    · have : x = a := by
        unfold Char.toLower at h
        split at h
        · rename_i hc
          exfalso
          have h3 : 65 ≤ x.val.toNat ∧ x.val.toNat ≤ 90 := ⟨UInt32.le_iff_toNat_le.mp hc.1, UInt32.le_iff_toNat_le.mp hc.2⟩
          have h2 : (x.val + 32).toNat = a.toNat := congrArg Char.toNat h
          rw [UInt32.toNat_add, show (32 : UInt32).toNat = 32 from rfl] at h2
          omega
        · exact h
      simp [this, e1]
    · simp [h]

/-- two symbols, with blanks before them -/
theorem umatch_pair (ci : Bool) (a b : Char) (ha : special a = false) (hb : special b = false) (na : a.toNat < 65) (nb : b.toNat < 65)
    (s : List Char) : umatch ci [a, b] s =
      match skipbl s with
      | x :: y :: r => if x = a ∧ y = b then .ok (skipcom r) else .fail
      | _ => .fail := by
  have e : [a, b] = segText [.lit a, .lit b] := rfl
  rw [e, umatch_single ci _ (by intro t ht; simp at ht; rcases ht with rfl | rfl <;> simp [Seg.wf, ha, hb])]
  generalize skipbl s = t
  match t with
  | [] => rfl
  | [x] =>
    simp only [segMatch]
    split
    · rename_i h; split at h <;> cases h
    · rfl
  | x :: y :: r =>
    simp only [segMatch, eqc_symbol ci _ _ na, eqc_symbol ci _ _ nb, beq_iff_eq]
    by_cases h1 : x = a <;> by_cases h2 : y = b <;> simp [h1, h2]

theorem pair_hit (ci : Bool) (a b : Char) (ha : special a = false) (hb : special b = false) (na : a.toNat < 65) (nb : b.toNat < 65)
    (ga : isGraph a = true) (r : List Char) : umatch ci [a, b] (a :: b :: r) = .ok (skipcom r) := by
  rw [umatch_pair ci a b ha hb na nb, skipbl_cons _ ga]
  simp

theorem pair_miss (ci : Bool) (a b : Char) (ha : special a = false) (hb : special b = false) (na : a.toNat < 65) (nb : b.toNat < 65)
    (s : List Char) (h : ¬ [a, b] <+: skipbl s) : umatch ci [a, b] s = .fail := by
  rw [umatch_pair ci a b ha hb na nb]
  split
  · rename_i x y r e
    rw [if_neg]
    rintro ⟨rfl, rfl⟩
    exact h ⟨r, by rw [e]; rfl⟩
  · rfl

theorem open_hit (ci : Bool) (r : List Char) : umatch ci ['(', '*'] ('(' :: '*' :: r) = .ok (skipcom r) :=
  pair_hit ci '(' '*' (by decide) (by decide) (by decide) (by decide) (by decide) r

theorem close_miss (ci : Bool) (s : List Char) (h : ¬ ['*', ')'] <+: skipbl s) : umatch ci ['*', ')'] s = .fail :=
  pair_miss ci '*' ')' (by decide) (by decide) (by decide) (by decide) s h

theorem open_miss (ci : Bool) (s : List Char) (h : ¬ ['(', '*'] <+: skipbl s) : umatch ci ['(', '*'] s = .fail :=
  pair_miss ci '(' '*' (by decide) (by decide) (by decide) (by decide) s h

/-! ## Attributes -/

/-- a text that does not begin with attributes, a blank or a comma -/
def Stop (s : List Char) : Prop := Next s ∧ ¬ ['(', '*'] <+: s

theorem Stop.of_head {c : Char} {r : List Char} (h : isGraph c = true) (h1 : c ≠ ',') (h2 : c ≠ '(') : Stop (c :: r) := by
  refine ⟨.inr ⟨c, r, rfl, h, h1⟩, ?_⟩
  rintro ⟨t, ht⟩
  injection ht with e _
  exact h2 e.symm

theorem Stop.plain {w : List Char} (hw : Plain w) (r : List Char) : Stop (w ++ r) := by
  obtain ⟨c, w', rfl⟩ := List.exists_cons_of_ne_nil hw.ne
  have ht := hw.noTerm c (by simp)
  exact Stop.of_head (hw.graph c (by simp)) (fun e => by rw [e] at ht; cases ht) (fun e => by rw [e] at ht; cases ht)

theorem attrs_none (ci : Bool) (s : List Char) (h : Stop s) (n : ℕ) (comma : List Char) : attrLoop ci n comma s = ([], s) := by
  cases n with
  | zero => rfl
  | succ n =>
    simp only [attrLoop]
    rw [open_miss ci s (by rw [h.1.skipbl]; exact h.2)]

theorem body_text (ci : Bool) (z : List Char) : ∀ a : List Char, (a = [] ∨ ∃ r c, a = r ++ [c] ∧ isGraph c = true) → ¬ ['*', ')'] <:+: a →
    attrBody ci (a ++ ' ' :: '*' :: ')' :: z) = (a, skipcom z)
  | [], _, _ => by
    simp only [List.nil_append, attrBody]
    rw [umatch_pair ci '*' ')' (by decide) (by decide) (by decide) (by decide),
      show skipbl (' ' :: '*' :: ')' :: z) = '*' :: ')' :: z from by
        rw [show ' ' :: '*' :: ')' :: z = [' '] ++ ('*' :: ')' :: z) from rfl, skipbl_blanks _ _ (by decide), skipbl_cons _ (by decide)]]
    simp
  | c :: a, hl, hi => by
    have hl' : a = [] ∨ ∃ r c, a = r ++ [c] ∧ isGraph c = true := by
      rcases hl with h | ⟨r, d, h, hd⟩
      · cases h
      · cases r with
        | nil => injection h with _ h2; exact .inl h2
        | cons x r => injection h with _ h2; exact .inr ⟨r, d, h2, hd⟩
    have ih := body_text ci z a hl' (fun ⟨x, y, h⟩ => hi ⟨c :: x, y, by rw [← h]; simp⟩)
    rw [List.cons_append]
    simp only [attrBody]
    rw [close_miss ci]
    · rw [ih]
    · rintro ⟨t, ht⟩
      -- where the first character to see is
      have key : ∀ u : List Char, u ≠ [] → (∃ r d, u = r ++ [d] ∧ isGraph d = true) → ∀ y, ∃ w, w ≠ [] ∧ w <:+ u ∧ skipbl (u ++ y) = w ++ y := by
        intro u
        induction u with
        | nil => intro h; exact absurd rfl h
        | cons e u ihu =>
          intro _ hu y
          by_cases hg : isGraph e = true
          · exact ⟨e :: u, by simp, List.suffix_refl _, by rw [List.cons_append, skipbl_cons _ hg]⟩
          · obtain ⟨r, d, hr, hd⟩ := hu
            cases r with
            | nil => injection hr with h1 _; rw [h1] at hg; exact absurd hd hg
            | cons x r =>
              injection hr with h1 h2
              obtain ⟨w, w1, w2, w3⟩ := ihu (by rw [h2]; simp) ⟨r, d, h2, hd⟩ y
              refine ⟨w, w1, w2.trans (List.suffix_cons e u), ?_⟩
              rw [← w3, List.cons_append]
              conv_lhs => unfold skipbl
              rw [if_neg hg]
      obtain ⟨w, w1, ⟨p, w2⟩, w3⟩ := key (c :: a) (by simp) (by rcases hl with h | h; cases h; exact h) (' ' :: '*' :: ')' :: z)
      rw [List.cons_append] at w3
      rw [w3] at ht
      match w, w1 with
      | [x], _ => simp at ht
      | x :: y :: w, _ =>
        simp only [List.cons_append, List.nil_append, List.cons.injEq] at ht
        obtain ⟨rfl, rfl, _⟩ := ht
        exact hi ⟨p, w, by rw [← w2]; simp⟩

/-- **C77, attributes** that are listed are read again, up to what follows. -/
theorem attrs_read (ci : Bool) (a s : List Char) (ha : AttrOk a) (hs : Stop s) : attrs ci (attrText a ++ s) = (a, s) := by
  unfold attrs attrText
  rcases ha with rfl | ⟨⟨c, r, e, hg, hc⟩, hl, hi⟩
  · rw [if_pos rfl, List.nil_append, attrs_none ci s hs]
  · have hne : a ≠ [] := by rw [e]; simp
    rw [if_neg hne]
    have et : ['(', '*', ' '] ++ (a ++ [' ', '*', ')', ' ']) ++ s = '(' :: '*' :: ' ' :: (a ++ ' ' :: '*' :: ')' :: ' ' :: s) := by simp
    rw [et]
    have e1 : skipcom (' ' :: (a ++ ' ' :: '*' :: ')' :: ' ' :: s)) = a ++ ' ' :: '*' :: ')' :: ' ' :: s :=
      skipcom_gap ⟨[' '], false, []⟩ ⟨by decide, by decide⟩ _ (.inr ⟨c, r ++ ' ' :: '*' :: ')' :: ' ' :: s, by rw [e]; rfl, hg, hc⟩)
    have e2 : skipcom (' ' :: s) = s := skipcom_gap ⟨[' '], false, []⟩ ⟨by decide, by decide⟩ _ hs.1
    simp only [attrLoop]
    rw [open_hit, e1]
    simp only
    rw [body_text ci _ a (.inr hl) hi, e2, attrs_none ci s hs]
    simp

theorem groups_loop (ci : Bool) (s : List Char) (hs : Stop s) (l : List (List Char)) : (∀ a ∈ l, AttrOk a ∧ a ≠ []) → ∀ n, l.length < n →
    ∀ comma, attrLoop ci n comma (l.flatMap attrText ++ s) =
      (match l with | [] => [] | a :: l => comma ++ a ++ l.flatMap fun b => [',', ' '] ++ b, s) := by
  induction l with
  | nil => intro _ n _ comma; exact attrs_none ci s hs n comma
  | cons a l ih =>
    intro hl n hn comma
    obtain ⟨n, rfl⟩ : ∃ m, n = m + 1 := ⟨n - 1, by simp at hn; omega⟩
    obtain ⟨ha, hne⟩ := hl a (by simp)
    obtain ⟨⟨c, r, e, hg, hc⟩, hb, hi⟩ := ha.resolve_left hne
    have et : (a :: l).flatMap attrText ++ s = '(' :: '*' :: ' ' :: (a ++ ' ' :: '*' :: ')' :: ' ' :: (l.flatMap attrText ++ s)) := by
      simp [attrText, hne]
    have hnext : Next (l.flatMap attrText ++ s) := by
      cases l with
      | nil => exact hs.1
      | cons b l =>
        obtain ⟨-, hne⟩ := hl b (by simp)
        exact .inr ⟨'(', '*' :: ' ' :: (b ++ ' ' :: '*' :: ')' :: ' ' :: (l.flatMap attrText ++ s)), by simp [attrText, hne], by decide, by decide⟩
    have e1 : skipcom (' ' :: (a ++ ' ' :: '*' :: ')' :: ' ' :: (l.flatMap attrText ++ s))) = a ++ ' ' :: '*' :: ')' :: ' ' :: (l.flatMap attrText ++ s) :=
      skipcom_gap ⟨[' '], false, []⟩ ⟨by decide, by decide⟩ _ (.inr ⟨c, r ++ ' ' :: '*' :: ')' :: ' ' :: (l.flatMap attrText ++ s), by rw [e]; rfl, hg, hc⟩)
    have e2 : skipcom (' ' :: (l.flatMap attrText ++ s)) = l.flatMap attrText ++ s := skipcom_gap ⟨[' '], false, []⟩ ⟨by decide, by decide⟩ _ hnext
    rw [et]
    simp only [attrLoop]
    rw [open_hit, e1]
    simp only
    rw [body_text ci _ a (.inr hb) hi, e2, ih (fun b hb => hl b (by simp [hb])) n (by simp at hn; omega)]
    cases l <;> simp

/-- **C77, several attributes** one behind the other are read as one list, with commas in between. -/
theorem attrs_groups (ci : Bool) (a : List Char) (l : List (List Char)) (s : List Char) (hl : ∀ b ∈ a :: l, AttrOk b ∧ b ≠ []) (hs : Stop s) :
    attrs ci ((a :: l).flatMap attrText ++ s) = (a ++ l.flatMap fun b => [',', ' '] ++ b, s) := by
  unfold attrs
  rw [groups_loop ci s hs (a :: l) hl]
  · simp
  · have : ∀ m : List (List Char), (∀ b ∈ m, b ≠ []) → m.length ≤ (m.flatMap attrText).length := by
      intro m
      induction m with
      | nil => simp
      | cons b m ih =>
        intro h
        have := ih fun c hc => h c (by simp [hc])
        have hb := h b (by simp)
        simp only [List.flatMap_cons, List.length_append, List.length_cons, attrText, if_neg hb]
        omega
    have := this (a :: l) fun b hb => (hl b hb).2
    rw [List.length_append]
    omega

example : AttrOk ['a', '=', '1'] ∧ AttrOk ['b'] :=
  ⟨.inr ⟨⟨'a', _, rfl, by decide, by decide⟩, ⟨['a', '='], '1', rfl, by decide⟩, by decide⟩, .inr ⟨⟨'b', _, rfl, by decide, by decide⟩, ⟨[], 'b', rfl, by decide⟩, by decide⟩⟩

-- (* a=1, b* *) behind which a type follows
example (ci : Bool) : attrs ci (attrText ['a', '=', '1', ',', ' ', 'b', '*'] ++ ['r', ' ', '#']) = (['a', '=', '1', ',', ' ', 'b', '*'], ['r', ' ', '#']) :=
  attrs_read ci _ _ (.inr ⟨⟨'a', _, rfl, by decide, by decide⟩, ⟨['a', '=', '1', ',', ' ', 'b'], '*', rfl, by decide⟩, by decide⟩)
    (Stop.of_head (by decide) (by decide) (by decide))

/-! ## Identifiers -/

theorem gap_blank : isGap ' ' = true := rfl

theorem alnum_not_gap {c : Char} (h : isAlnum c = true) : isGap c = false ∧ isGraph c = true := by
  unfold isAlnum at h
  have hn : 48 ≤ c.toNat ∧ c.toNat ≤ 122 := by
    simp only [Bool.or_eq_true, Bool.and_eq_true, decide_eq_true_eq] at h
    omega
  refine ⟨?_, by simp [isGraph]; omega⟩
  unfold isGap
  simp only [Bool.or_eq_false_iff, decide_eq_false_iff_not]
  refine ⟨⟨?_, ?_⟩, ?_⟩ <;> rintro rfl <;> revert hn <;> decide

/-- an escaped name, ended by a blank -/
theorem getId_escaped (term : List Char) (c : Char) (r z : List Char) (hg : isGraph c = true) (hd : ∀ d ∈ c :: r, isGap d = false) :
    getId term ('\\' :: c :: r ++ ' ' :: z) = some (if (c :: r).all isAlnum then c :: r else '\\' :: c :: r, z) := by
  have hn : ∀ d ∈ c :: r, (!isGap d) = true := fun d h => by rw [hd d h]; rfl
  unfold getId
  simp only [List.cons_append]
  rw [skipbl_cons _ (by decide), skip1b_hit _ _ _ (by decide) (by decide), if_pos rfl]
  simp only
  rw [skipbl_cons _ hg]
  rw [← List.cons_append, List.takeWhile_append_of_pos hn, List.dropWhile_append_of_pos hn]
  simp [gap_blank]

/-- **C77, names** that are listed are read again, up to what stands behind them. -/
theorem id_read (t : Char) (stop name z : List Char) (ht : t ∈ stop) (gt : isGraph t = true) (ct : t ≠ ',') (h : Ident stop name) :
    getId stop (mangle name ++ t :: z) = some (name, t :: z) := by
  rcases h with ⟨c, r, rfl, hd, hb, ha⟩ | ⟨c, r, rfl, hd, ha⟩ | ⟨c, r, rfl, hg, ha, d, hd, hn⟩
  · have em : mangle (c :: r) = c :: r := by simp [mangle, hd, hb]
    rw [em]
    have hg := (ha c (by simp)).1
    unfold getId
    simp only [List.cons_append]
    rw [skipbl_cons _ hg, skip1b_miss _ _ _ hg (by simpa using hb)]
    simp only [Bool.false_eq_true, if_false]
    rw [← List.cons_append, ctos_plain stop [] (c :: r) (t :: z) (by simp) (fun d h => (ha d h).1)
      (fun d h => by simpa using (ha d h).2) (fun _ _ => rfl) ?_]
    · rw [Next.skipcom (.inr ⟨t, z, rfl, gt, ct⟩)]
    · intro d h
      simp only [List.head?_cons, Option.some.injEq] at h
      subst h
      simp [stops, ht]
  · have em : mangle (c :: r) ++ t :: z = '\\' :: c :: r ++ ' ' :: t :: z := by simp [mangle, hd]
    rw [em, getId_escaped stop c r _ (alnum_not_gap (ha c (by simp))).2 (fun d h => (alnum_not_gap (ha d h)).1),
      if_pos (by rw [List.all_eq_true]; exact ha)]
  · have em : mangle ('\\' :: c :: r) ++ t :: z = '\\' :: c :: r ++ ' ' :: t :: z := by
      simp [mangle, show isDigit '\\' = false from rfl]
    rw [em, getId_escaped stop c r _ hg ha, if_neg]
    rw [List.all_eq_true]
    intro h
    rw [h d hd] at hn
    cases hn

-- `12`, `out` and `\a*b`
theorem ident_12 (stop : List Char) : Ident stop ['1', '2'] := .inr (.inl ⟨'1', ['2'], rfl, by decide, by decide⟩)
theorem ident_out : Ident [')'] ['o', 'u', 't'] := .inl ⟨'o', ['u', 't'], rfl, by decide, by decide, by decide⟩
theorem ident_star (stop : List Char) : Ident stop ['\\', 'a', '*', 'b'] := .inr (.inr ⟨'a', ['*', 'b'], rfl, by decide, by decide, '*', by decide, by decide⟩)

example (z : List Char) : getId [')'] (['\\', '1', '2', ' '] ++ ')' :: z) = some (['1', '2'], ')' :: z) :=
  id_read ')' [')'] ['1', '2'] z (by decide) (by decide) (by decide) (ident_12 _)

/-! ## Parameters -/

/-- what follows the attributes of a parameter -/
def paramTail (c : Conn) : List Char := '.' :: (c.name ++ '(' :: (c.value ++ [')']))

theorem param_split (c : Conn) : paramText c = attrText c.attr ++ paramTail c := rfl

theorem stop_close (z : List Char) : Stop (')' :: z) := Stop.of_head (by decide) (by decide) (by decide)
theorem stop_point (z : List Char) : Stop ('.' :: z) := Stop.of_head (by decide) (by decide) (by decide)

theorem commas_cons (a : List Char) (l : List (List Char)) (z : List Char) :
    commas (a :: l) ++ z = a ++ (if l = [] then z else ',' :: (commas l ++ z)) := by
  cases l with
  | nil => simp [commas]
  | cons b l => simp [commas]

theorem attrText_next (a s : List Char) (hs : Next s) : Next (attrText a ++ s) := by
  unfold attrText
  split
  · exact hs
  · exact .inr ⟨'(', _, rfl, by decide, by decide⟩

/-- the first parameter or port behind a comma or the opening parenthesis -/
theorem comma_first (a s : List Char) (hs : Next s) : skipcom (',' :: (attrText a ++ s)) = attrText a ++ s := by
  have := skipcom_gap ⟨[], true, []⟩ ⟨by simp, by simp⟩ _ (attrText_next a s hs)
  simpa [Gap.text] using this

theorem params_loop (ci : Bool) (z : List Char) : ∀ (l : List Conn) (c : Conn) (n : ℕ), l.length + 1 < n → ParamOk c → (∀ d ∈ l, ParamOk d) →
    paramsNamed ci n c.attr (paramTail c ++ (if l = [] then ')' :: z else ',' :: (commas (l.map paramText) ++ ')' :: z))) = (c :: l, ')' :: z)
  | l, c, 0, h, _, _ => absurd h (by omega)
  | l, c, n + 1, hn, hc, hl => by
    generalize hrest : (if l = [] then ')' :: z else ',' :: (commas (l.map paramText) ++ ')' :: z)) = rest
    have hnm : ∃ d r, c.name = d :: r := List.exists_cons_of_ne_nil hc.ne
    have e0 : paramTail c ++ rest = '.' :: (c.name ++ '(' :: (c.value ++ ')' :: rest)) := by simp [paramTail]
    have e1 : skipbl (c.name ++ '(' :: (c.value ++ ')' :: rest)) = c.name ++ '(' :: (c.value ++ ')' :: rest) := by
      obtain ⟨d, r, e⟩ := hnm
      rw [e]
      exact skipbl_cons _ (hc.graph d (by rw [e]; simp)).1
    have e2 : ctos ['('] [] (c.name ++ '(' :: (c.value ++ ')' :: rest)) = (c.name, '(' :: (c.value ++ ')' :: rest)) := by
      rw [ctos_plain ['('] [] c.name _ hc.ne (fun d h => (hc.graph d h).1) (fun d h => by simpa using (hc.graph d h).2) (fun _ _ => rfl) ?_]
      · rw [Next.skipcom (.inr ⟨'(', _, rfl, by decide, by decide⟩)]
      · intro d h
        simp only [List.head?_cons, Option.some.injEq] at h
        subst h
        decide
    have e3 : ctos [',', ')'] [('(', ')')] ('(' :: (c.value ++ ')' :: rest)) = (c.value, skipcom rest) := by
      unfold ctos
      simp only
      rw [skipbl_cons _ (by decide)]
      simp only [List.lookup, beq_self_eq_true]
      rw [quoted_pairs (by decide) hc.value]
    rw [e0]
    simp only [paramsNamed]
    rw [skip1b_hit _ _ _ (by decide) (by decide)]
    simp only [if_true]
    rw [e1, e2]
    simp only
    rw [e3]
    simp only
    cases l with
    | nil =>
      rw [if_pos rfl] at hrest
      subst hrest
      have e4 : (skip1b [','] (skipcom (')' :: z))).2 = ')' :: z := by
        rw [(stop_close z).1.skipcom, skip1b_miss _ _ _ (by decide) (by decide)]
      rw [e4]
      unfold attrs
      rw [attrs_none ci _ (stop_close z)]
      simp only
      cases n with
      | zero => simp at hn
      | succ n =>
        simp only [paramsNamed]
        rw [skip1b_miss _ _ _ (by decide) (by decide)]
        simp
    | cons d l =>
      rw [if_neg (by simp)] at hrest
      have hd := hl d (by simp)
      have e5 : commas ((d :: l).map paramText) ++ ')' :: z =
          attrText d.attr ++ (paramTail d ++ (if l = [] then ')' :: z else ',' :: (commas (l.map paramText) ++ ')' :: z))) := by
        rw [List.map_cons, commas_cons, param_split, List.append_assoc]
        cases l <;> simp
      have ht : Stop (paramTail d ++ (if l = [] then ')' :: z else ',' :: (commas (l.map paramText) ++ ')' :: z))) := stop_point _
      rw [e5] at hrest
      subst hrest
      rw [comma_first _ _ ht.1]
      have e6 : (skip1b [','] (attrText d.attr ++ (paramTail d ++ (if l = [] then ')' :: z else ',' :: (commas (l.map paramText) ++ ')' :: z))))).2 =
          attrText d.attr ++ (paramTail d ++ (if l = [] then ')' :: z else ',' :: (commas (l.map paramText) ++ ')' :: z))) := by
        rcases attrText_next d.attr _ ht.1 with h | ⟨x, r, h, hx, hc⟩
        · rw [h]; rfl
        · rw [h, skip1b_miss _ _ _ hx (by simpa using hc)]
      rw [e6, attrs_read ci _ _ hd.attr ht]
      simp only
      rw [params_loop ci z l d n (by simp at hn; omega) hd (fun x hx => hl x (by simp [hx]))]

/-- the length of a list of parameters is below that of its text -/
theorem commas_length (f : Conn → List Char) (h : ∀ c, 1 ≤ (f c).length) : ∀ l : List Conn, l.length ≤ (commas (l.map f)).length
  | [] => by simp [commas]
  | [c] => by simpa [commas] using h c
  | c :: d :: l => by
    have := commas_length f h (d :: l)
    simp only [List.map_cons, commas, List.length_append, List.length_cons] at this ⊢
    have := h c
    omega

/-- **C77, parameters** -/
theorem params_read (ci : Bool) (l : List Conn) (hl : ∀ c ∈ l, ParamOk c) (z : List Char) :
    params ci (['#', '('] ++ (commas (l.map paramText) ++ ')' :: z)) = (given l, skipbl z) := by
  unfold params
  simp only [List.cons_append, List.nil_append]
  rw [pair_hit ci '#' '(' (by decide) (by decide) (by decide) (by decide) (by decide)]
  simp only
  cases l with
  | nil =>
    simp only [List.map_nil, commas, List.nil_append]
    rw [(stop_close z).1.skipcom]
    unfold attrs
    rw [attrs_none ci _ (stop_close z)]
    simp only [match1, show (['.'] : List Char).contains ')' = false from rfl, Bool.false_eq_true, if_false, paramsOrdered,
      show (alnumAt ')' || decide (')' = '+') || decide (')' = '-') || decide (')' = '.')) = false from rfl]
    rw [skip1b_hit _ _ _ (by decide) (by decide)]
    rfl
  | cons d l =>
    have hd := hl d (by simp)
    have e5 : commas ((d :: l).map paramText) ++ ')' :: z =
        attrText d.attr ++ (paramTail d ++ (if l = [] then ')' :: z else ',' :: (commas (l.map paramText) ++ ')' :: z))) := by
      rw [List.map_cons, commas_cons, param_split, List.append_assoc]
      cases l <;> simp
    have ht : Stop (paramTail d ++ (if l = [] then ')' :: z else ',' :: (commas (l.map paramText) ++ ')' :: z))) := stop_point _
    rw [e5, (attrText_next _ _ ht.1).skipcom, attrs_read ci _ _ hd.attr ht]
    simp only
    have hm : match1 ['.'] (paramTail d ++ (if l = [] then ')' :: z else ',' :: (commas (l.map paramText) ++ ')' :: z))) = true := rfl
    rw [if_pos hm]
    rw [params_loop ci z l d _ ?_ hd (fun x hx => hl x (by simp [hx]))]
    · simp only
      rw [skip1b_hit _ _ _ (by decide) (by decide)]
      simp [given]
    · have := commas_length paramText (fun c => by simp [paramText]; omega) l
      cases l with
      | nil => simp [paramTail]
      | cons x l => simp only [List.length_append, if_neg (List.cons_ne_nil x l), List.length_cons, paramTail] at this ⊢; omega

/-! ## Ports -/

def portTail (c : Conn) : List Char := '.' :: (mangle c.name ++ '(' :: (mangle c.value ++ [')']))

theorem port_split (c : Conn) : portText c = attrText c.attr ++ portTail c := rfl

theorem mangle_next {stop name : List Char} (h : Ident stop name) (z : List Char) : skipbl (mangle name ++ z) = mangle name ++ z := by
  rcases h with ⟨c, r, rfl, hd, hb, ha⟩ | ⟨c, r, rfl, hd, ha⟩ | ⟨c, r, rfl, hg, ha, d, hd, hn⟩
  · simp only [mangle, hd, hb, Bool.false_eq_true, if_false, List.cons_append]
    exact skipbl_cons _ (ha c (by simp)).1
  · simp only [mangle, hd, if_true, List.cons_append]
    exact skipbl_cons _ (by decide)
  · simp only [mangle, show isDigit '\\' = false from rfl, Bool.false_eq_true, if_false, if_true, List.cons_append]
    exact skipbl_cons _ (by decide)

/-- one port by name -/
theorem port_step (ci : Bool) (n : ℕ) (c : Conn) (hc : PortOk c) (rest : List Char) : portsNamed ci (n + 1) c.attr (portTail c ++ rest) =
    (portsNamed ci n (attrs ci (skip1b [','] (skipbl rest)).2).1 (attrs ci (skip1b [','] (skipbl rest)).2).2).map
      fun t => (c :: t.1, t.2) := by
  have e0 : portTail c ++ rest = '.' :: (mangle c.name ++ '(' :: (mangle c.value ++ ')' :: rest)) := by simp [portTail]
  rw [e0]
  simp only [portsNamed]
  rw [skip1b_hit _ _ _ (by decide) (by decide)]
  simp only [if_true]
  rw [mangle_next hc.name, id_read '(' ['('] c.name _ (by simp) (by decide) (by decide) hc.name]
  simp only
  rw [skip1b_hit _ _ _ (by decide) (by decide), mangle_next hc.value]
  simp only [if_true]
  rw [id_read ')' [')'] c.value _ (by simp) (by decide) (by decide) hc.value]
  simp only
  rw [skip1b_hit _ _ _ (by decide) (by decide)]

theorem ports_loop (ci : Bool) (z : List Char) : ∀ (l : List Conn) (c : Conn) (n : ℕ), l.length + 1 < n → PortOk c → (∀ d ∈ l, PortOk d) →
    portsNamed ci n c.attr (portTail c ++ (if l = [] then ')' :: z else ',' :: (commas (l.map portText) ++ ')' :: z))) = some (c :: l, ')' :: z)
  | l, c, 0, h, _, _ => absurd h (by omega)
  | l, c, n + 1, hn, hc, hl => by
    rw [port_step ci n c hc]
    cases l with
    | nil =>
      rw [if_pos rfl, skipbl_cons _ (by decide), skip1b_miss _ _ _ (by decide) (by decide)]
      unfold attrs
      simp only [attrs_none ci _ (stop_close z)]
      cases n with
      | zero => simp at hn
      | succ n =>
        simp only [portsNamed]
        rw [skip1b_miss _ _ _ (by decide) (by decide)]
        simp
    | cons d l =>
      have hd := hl d (by simp)
      have e5 : commas ((d :: l).map portText) ++ ')' :: z =
          attrText d.attr ++ (portTail d ++ (if l = [] then ')' :: z else ',' :: (commas (l.map portText) ++ ')' :: z))) := by
        rw [List.map_cons, commas_cons, port_split, List.append_assoc]
        cases l <;> simp
      have ht : Stop (portTail d ++ (if l = [] then ')' :: z else ',' :: (commas (l.map portText) ++ ')' :: z))) := stop_point _
      rw [if_neg (List.cons_ne_nil d l), e5, skipbl_cons _ (by decide), skip1b_hit _ _ _ (by decide) (by decide),
        (attrText_next _ _ ht.1).skipbl]
      simp only [attrs_read ci _ _ hd.attr ht]
      rw [ports_loop ci z l d n (by simp at hn; omega) hd (fun x hx => hl x (by simp [hx]))]
      rfl

/-- **C77, ports** -/
theorem ports_read (ci : Bool) (l : List Conn) (hl : ∀ c ∈ l, PortOk c) (z : List Char) :
    ports ci ('(' :: (commas (l.map portText) ++ ')' :: z)) = some (given l, skipbl z) := by
  unfold ports
  rw [skip1b_hit _ _ _ (by decide) (by decide)]
  simp only [if_true]
  cases l with
  | nil =>
    simp only [List.map_nil, commas, List.nil_append]
    rw [(stop_close z).1.skipbl]
    unfold attrs
    rw [attrs_none ci _ (stop_close z)]
    simp only [match1, show (['.'] : List Char).contains ')' = false from rfl, Bool.false_eq_true, if_false, portsOrdered,
      show (alnumAt ')' || decide (')' = '\\')) = false from rfl]
    rw [Option.map_some, skip1b_hit _ _ _ (by decide) (by decide)]
    rfl
  | cons d l =>
    have hd := hl d (by simp)
    have e5 : commas ((d :: l).map portText) ++ ')' :: z =
        attrText d.attr ++ (portTail d ++ (if l = [] then ')' :: z else ',' :: (commas (l.map portText) ++ ')' :: z))) := by
      rw [List.map_cons, commas_cons, port_split, List.append_assoc]
      cases l <;> simp
    have ht : Stop (portTail d ++ (if l = [] then ')' :: z else ',' :: (commas (l.map portText) ++ ')' :: z))) := stop_point _
    rw [e5, (attrText_next _ _ ht.1).skipbl, attrs_read ci _ _ hd.attr ht]
    simp only
    have hm : match1 ['.'] (portTail d ++ (if l = [] then ')' :: z else ',' :: (commas (l.map portText) ++ ')' :: z))) = true := rfl
    rw [if_pos hm]
    rw [ports_loop ci z l d _ ?_ hd (fun x hx => hl x (by simp [hx]))]
    · simp only [Option.map_some]
      rw [skip1b_hit _ _ _ (by decide) (by decide)]
      simp [given]
    · have := commas_length portText (fun c => by simp [portText]; omega) l
      cases l with
      | nil => simp [portTail]
      | cons x l => simp only [List.length_append, if_neg (List.cons_ne_nil x l), List.length_cons, portTail] at this ⊢; omega

/-! ## Instances -/

/-- **C77, instances**: what is listed is read again as it was, and nothing is left over. -/
theorem list_read (ci : Bool) (x : Inst) (h : Listable x) :
    parseInst ci (listInst x) = some ⟨x.attr, x.type, given x.params, some x.label, given x.ports, []⟩ := by
  unfold parseInst listInst
  rw [attrs_read ci _ _ h.attr (Stop.plain h.type _)]
  simp only
  rw [word_plain _ _ h.type rfl]
  simp only
  have e1 : ∀ s, skipcom ([' ', '#', '('] ++ s) = ['#', '('] ++ s := fun s =>
    skipcom_gap ⟨[' '], false, []⟩ ⟨by decide, by decide⟩ ('#' :: '(' :: s) (.inr ⟨'#', _, rfl, by decide, by decide⟩)
  rw [e1]
  rw [show ([')', ' '] ++ (x.label ++ ([' ', '('] ++ (commas (x.ports.map portText) ++ [')', ';'])))) =
    ')' :: ([' '] ++ (x.label ++ ([' ', '('] ++ (commas (x.ports.map portText) ++ [')', ';'])))) from rfl]
  rw [params_read ci _ h.params, skipbl_blanks _ _ (by decide), (h.label.next _).skipbl]
  simp only
  rw [word_plain _ _ h.label rfl]
  simp only
  have e2 : ∀ s, skipcom ([' ', '('] ++ s) = '(' :: s := fun s =>
    skipcom_gap ⟨[' '], false, []⟩ ⟨by decide, by decide⟩ ('(' :: s) (.inr ⟨'(', _, rfl, by decide, by decide⟩)
  rw [e2, ports_read ci _ h.ports, skipbl_cons _ (by decide), Option.map_some, skip1b_hit _ _ _ (by decide) (by decide), if_neg h.label.ne]
  rfl

/-- `(* a=1 *) res #(.r(2*(x+1)),.tc1(0)) R1 (.p(\12 ),.n(\a*b ));` -/
def sampleInst : Inst :=
  ⟨['a', '=', '1'], ['r', 'e', 's'], [⟨[], ['r'], ['2', '*', '(', 'x', '+', '1', ')']⟩, ⟨[], ['t', 'c', '1'], ['0']⟩], ['R', '1'],
    [⟨[], ['p'], ['1', '2']⟩, ⟨['k'], ['n'], ['\\', 'a', '*', 'b']⟩]⟩

theorem sample_listable : Listable sampleInst where
  attr := .inr ⟨⟨'a', _, rfl, by decide, by decide⟩, ⟨['a', '='], '1', rfl, by decide⟩, by decide⟩
  type := plain_of _ (by decide)
  params := by
    intro c hc
    simp only [sampleInst, List.mem_cons, List.not_mem_nil, or_false] at hc
    rcases hc with rfl | rfl
    · refine ⟨.inl rfl, by decide, by decide, ?_⟩
      exact .plain _ _ (by decide) (.plain _ _ (by decide) (.pair ['x', '+', '1'] [] (Nest.of_plain _ _ _ (by decide)) .nil))
    · exact ⟨.inl rfl, by decide, by decide, Nest.of_plain _ _ _ (by decide)⟩
  label := plain_of _ (by decide)
  ports := by
    intro c hc
    simp only [sampleInst, List.mem_cons, List.not_mem_nil, or_false] at hc
    rcases hc with rfl | rfl
    · exact ⟨.inl rfl, .inl ⟨'p', [], rfl, by decide, by decide, by decide⟩, ident_12 _⟩
    · exact ⟨.inr ⟨⟨'k', _, rfl, by decide, by decide⟩, ⟨[], 'k', rfl, by decide⟩, by decide⟩, .inl ⟨'n', [], rfl, by decide, by decide, by decide⟩,
        ident_star _⟩

example (ci : Bool) : parseInst ci (listInst sampleInst) =
    some ⟨['a', '=', '1'], ['r', 'e', 's'], .named sampleInst.params, some ['R', '1'], .named sampleInst.ports, []⟩ :=
  list_read ci sampleInst sample_listable

/-! ## The type of a line -/

theorem drop_to_star (a z : List Char) (h : '*' ∉ a) : (a ++ '*' :: z).dropWhile (· ≠ '*') = '*' :: z := by
  induction a with
  | nil => simp
  | cons c a ih =>
    have h1 : c ≠ '*' := fun e => h (by simp [e])
    simp only [List.cons_append, List.dropWhile, decide_eq_true h1, ne_eq, not_false_eq_true]
    exact ih fun h2 => h (by simp [h2])

theorem skip_none (ci : Bool) (s : List Char) (h : Stop s) (n : ℕ) : skipAttrs ci n s = s := by
  cases n with
  | zero => rfl
  | succ n =>
    simp only [skipAttrs]
    rw [open_miss ci s (by rw [h.1.skipbl]; exact h.2)]

/-- **C77, the type** is found behind attributes without an asterisk. -/
theorem type_found_partial (ci : Bool) (x : Inst) (h : Listable x) (hs : '*' ∉ x.attr) (hc : ¬ ['/', '/'] <+: x.type) :
    findType ci (listInst x) = some x.type := by
  have hw : ∀ r, isTerm r = true → (match umatch ci ['/', '/'] (x.type ++ r) with | .ok _ => none | _ => some (word (x.type ++ r)).1) = some x.type := by
    intro r hr
    rw [pair_miss ci '/' '/' (by decide) (by decide) (by decide) (by decide), word_plain _ _ h.type hr]
    rw [(h.type.next r).skipbl]
    rintro ⟨t, ht⟩
    cases hx : x.type with
    | nil => exact h.type.ne hx
    | cons c w =>
      rw [hx] at ht
      cases w with
      | nil =>
        simp only [List.cons_append, List.nil_append, List.cons.injEq] at ht
        rw [← ht.2] at hr
        cases hr
      | cons d w =>
        simp only [List.cons_append, List.nil_append, List.cons.injEq] at ht
        exact hc ⟨w, by rw [hx, ← ht.1, ← ht.2.1]; rfl⟩
  unfold findType listInst
  generalize hr : ([' ', '#', '('] ++ (commas (x.params.map paramText) ++ ([')', ' '] ++ (x.label ++ ([' ', '('] ++
    (commas (x.ports.map portText) ++ [')', ';'])))))) = r
  have hrt : isTerm r = true := by rw [← hr]; rfl
  have hst : Stop (x.type ++ r) := Stop.plain h.type r
  rcases h.attr with ha | ⟨⟨c, r', e, hg, hcm⟩, -, -⟩
  · rw [ha]
    simp only [attrText, if_true, List.nil_append]
    rw [skip_none ci _ hst]
    exact hw r hrt
  · have hne : x.attr ≠ [] := by rw [e]; simp
    simp only [attrText, if_neg hne]
    have et : ['(', '*', ' '] ++ (x.attr ++ [' ', '*', ')', ' ']) ++ (x.type ++ r) =
        '(' :: '*' :: ' ' :: (x.attr ++ ' ' :: '*' :: ')' :: ' ' :: (x.type ++ r)) := by simp
    have e1 : skipcom (' ' :: (x.attr ++ ' ' :: '*' :: ')' :: ' ' :: (x.type ++ r))) = x.attr ++ ' ' :: '*' :: ')' :: ' ' :: (x.type ++ r) :=
      skipcom_gap ⟨[' '], false, []⟩ ⟨by decide, by decide⟩ _ (.inr ⟨c, r' ++ ' ' :: '*' :: ')' :: ' ' :: (x.type ++ r), by rw [e]; rfl, hg, hcm⟩)
    have e2 : skipcom (' ' :: (x.type ++ r)) = x.type ++ r := skipcom_gap ⟨[' '], false, []⟩ ⟨by decide, by decide⟩ _ hst.1
    have e3 : (x.attr ++ ' ' :: '*' :: ')' :: ' ' :: (x.type ++ r)).dropWhile (· ≠ '*') = '*' :: ')' :: ' ' :: (x.type ++ r) := by
      have := drop_to_star (x.attr ++ [' ']) (')' :: ' ' :: (x.type ++ r)) (by simp [hs])
      simpa using this
    rw [et]
    simp only [skipAttrs]
    rw [open_hit, e1]
    simp only
    rw [if_pos (by simp), e3, pair_hit ci '*' ')' (by decide) (by decide) (by decide) (by decide) (by decide), e2]
    simp only
    rw [skip_none ci _ hst]
    exact hw r hrt

example (ci : Bool) : findType ci (listInst sampleInst) = some ['r', 'e', 's'] :=
  type_found_partial ci sampleInst sample_listable (by decide) (by decide)

theorem word_star (r : List Char) : ∃ t, (word ('*' :: r)).1 = '*' :: t := by
  unfold word ctos
  simp only
  rw [skipbl_cons _ (by decide)]
  simp only [List.lookup, show ('*' == '"') = false from rfl, show ('*' == '\'') = false from rfl, show ('*' == '{') = false from rfl,
    List.takeWhile, show (!stops [',', '=', '(', ')', '{', '}', ';'] '*') = true from rfl]
  exact ⟨_, rfl⟩

/-- **C77, violated**: with an asterisk among the attributes, the type found is the text from there on, not the type of the instance
that reading the attributes leads to. -/
theorem type_star (ci : Bool) (x : Inst) (h : Listable x) (hs : '*' ∈ x.attr) : ∃ t, findType ci (listInst x) = some ('*' :: t) := by
  unfold findType listInst
  generalize hr : x.type ++ ([' ', '#', '('] ++ (commas (x.params.map paramText) ++ ([')', ' '] ++ (x.label ++ ([' ', '('] ++
    (commas (x.ports.map portText) ++ [')', ';'])))))) = r
  rcases h.attr with ha | ⟨⟨c, r', e, hg, hcm⟩, -, hi⟩
  · rw [ha] at hs; cases hs
  · have hne : x.attr ≠ [] := by rw [e]; simp
    simp only [attrText, if_neg hne]
    have et : ['(', '*', ' '] ++ (x.attr ++ [' ', '*', ')', ' ']) ++ r = '(' :: '*' :: ' ' :: (x.attr ++ ' ' :: '*' :: ')' :: ' ' :: r) := by simp
    have e1 : skipcom (' ' :: (x.attr ++ ' ' :: '*' :: ')' :: ' ' :: r)) = x.attr ++ ' ' :: '*' :: ')' :: ' ' :: r :=
      skipcom_gap ⟨[' '], false, []⟩ ⟨by decide, by decide⟩ _ (.inr ⟨c, r' ++ ' ' :: '*' :: ')' :: ' ' :: r, by rw [e]; rfl, hg, hcm⟩)
    obtain ⟨p, q, hp, hpq⟩ : ∃ p q, '*' ∉ p ∧ x.attr = p ++ '*' :: q := by
      obtain ⟨p, q, e1, e2⟩ := List.append_of_mem hs |>.elim fun p hq => hq.elim fun q hpq => by
        exact List.eq_append_cons_of_mem hs
      exact ⟨p, q, e2, e1⟩
    have e3 : (x.attr ++ ' ' :: '*' :: ')' :: ' ' :: r).dropWhile (· ≠ '*') = '*' :: (q ++ ' ' :: '*' :: ')' :: ' ' :: r) := by
      rw [hpq, List.append_assoc]
      exact drop_to_star p _ hp
    have hst : Stop ('*' :: (q ++ ' ' :: '*' :: ')' :: ' ' :: r)) := Stop.of_head (by decide) (by decide) (by decide)
    rw [et]
    simp only [skipAttrs]
    rw [open_hit, e1]
    simp only
    rw [if_pos (by simp), e3, close_miss ci]
    · simp only
      rw [skip_none ci _ hst, pair_miss ci '/' '/' (by decide) (by decide) (by decide) (by decide)]
      · simp only
        obtain ⟨t, ht⟩ := word_star (q ++ ' ' :: '*' :: ')' :: ' ' :: r)
        exact ⟨t, by rw [ht]⟩
      · rw [hst.1.skipbl]
        rintro ⟨t, ht⟩
        cases ht
    · rw [hst.1.skipbl]
      rintro ⟨t, ht⟩
      cases q with
      | nil => simp at ht
      | cons d q =>
        simp only [List.cons_append, List.nil_append, List.cons.injEq, true_and] at ht
        exact hi ⟨p, q, by rw [hpq, ← ht.1]; simp⟩

-- `(* a*b *) res ...`
example (ci : Bool) : ∃ t, findType ci (listInst { sampleInst with attr := ['a', '*', 'b'] }) = some ('*' :: t) :=
  type_star ci _ ⟨.inr ⟨⟨'a', _, rfl, by decide, by decide⟩, ⟨['a', '*'], 'b', rfl, by decide⟩, by decide⟩, sample_listable.type,
    sample_listable.params, sample_listable.label, sample_listable.ports⟩ (by decide)

/-! ## Names that change -/

/-- **C77, violated**: a name that begins with a digit and has more than digits and letters is another one, with a backslash, when it
is read again. -/
theorem digit_name_changed (stop : List Char) (c : Char) (r z : List Char) (hc : isDigit c = true) (hg : ∀ d ∈ r, isGap d = false)
    (hn : ∃ d ∈ r, isAlnum d = false) : getId stop (mangle (c :: r) ++ z) = some ('\\' :: c :: r, z) := by
  have hca : isAlnum c = true := by
    unfold isAlnum
    unfold isDigit at hc
    rw [hc]; rfl
  have em : mangle (c :: r) ++ z = '\\' :: c :: r ++ ' ' :: z := by simp [mangle, hc]
  rw [em, getId_escaped stop c r _ (alnum_not_gap hca).2, if_neg]
  · rw [List.all_eq_true]
    obtain ⟨d, hd, hn⟩ := hn
    intro h
    rw [h d (by simp [hd])] at hn
    cases hn
  · intro d hd
    rcases List.mem_cons.mp hd with rfl | hd
    · exact (alnum_not_gap hca).1
    · exact hg d hd

-- `1_2` is listed as `\1_2 `, and read as `\1_2`
example (z : List Char) : getId [')'] (mangle ['1', '_', '2'] ++ ')' :: z) = some (['\\', '1', '_', '2'], ')' :: z) :=
  digit_name_changed [')'] '1' ['_', '2'] _ (by decide) (by decide) ⟨'_', by decide, by decide⟩

/-- **C77, violated**: a name kept with a backslash although it is of digits and letters loses it. -/
theorem escape_dropped (stop : List Char) (c : Char) (r z : List Char) (h : ∀ d ∈ c :: r, isAlnum d = true) :
    getId stop (mangle ('\\' :: c :: r) ++ z) = some (c :: r, z) := by
  have em : mangle ('\\' :: c :: r) ++ z = '\\' :: c :: r ++ ' ' :: z := by simp [mangle, show isDigit '\\' = false from rfl]
  rw [em, getId_escaped stop c r _ (alnum_not_gap (h c (by simp))).2 (fun d hd => (alnum_not_gap (h d hd)).1),
    if_pos (by rw [List.all_eq_true]; exact h)]

example (z : List Char) : getId [')'] (mangle ['\\', 'a'] ++ ')' :: z) = some (['a'], ')' :: z) :=
  escape_dropped [')'] 'a' [] _ (by decide)

theorem graph_not_gap {c : Char} (h : isGraph c = true) : isGap c = false := by
  unfold isGap
  simp only [Bool.or_eq_false_iff, decide_eq_false_iff_not]
  refine ⟨⟨?_, ?_⟩, ?_⟩ <;> rintro rfl <;> revert h <;> decide

/-- **C77, violated**: when a name behind a backslash is not ended by a blank, up to the end of the line, the scanner goes behind the
end of the text. -/
theorem escape_unended (ci : Bool) (type label p w : List Char) (ht : Plain type) (hl : Plain label) (hp : Ident ['('] p)
    (hw : ∀ c ∈ w, isGraph c = true) :
    parseInst ci (type ++ ([' ', '#', '(', ')', ' '] ++ (label ++ ([' ', '(', '.'] ++ (mangle p ++ ('(' :: '\\' :: w)))))) = none := by
  unfold parseInst attrs
  rw [attrs_none ci _ (Stop.plain ht _)]
  simp only
  rw [word_plain _ _ ht rfl]
  simp only
  have e1 : ∀ s, skipcom ([' ', '#', '(', ')', ' '] ++ s) = ['#', '('] ++ (commas (([] : List Conn).map paramText) ++ ')' :: ([' '] ++ s)) := fun s =>
    skipcom_gap ⟨[' '], false, []⟩ ⟨by decide, by decide⟩ ('#' :: '(' :: ')' :: ' ' :: s) (.inr ⟨'#', _, rfl, by decide, by decide⟩)
  rw [e1, params_read ci [] (by simp), skipbl_blanks _ _ (by decide), (hl.next _).skipbl]
  simp only
  rw [word_plain _ _ hl rfl]
  simp only
  have e2 : ∀ s, skipcom ([' ', '(', '.'] ++ s) = '(' :: '.' :: s := fun s =>
    skipcom_gap ⟨[' '], false, []⟩ ⟨by decide, by decide⟩ ('(' :: '.' :: s) (.inr ⟨'(', _, rfl, by decide, by decide⟩)
  rw [e2]
  unfold ports
  rw [skip1b_hit _ _ _ (by decide) (by decide), skipbl_cons _ (by decide)]
  simp only [if_true]
  unfold attrs
  rw [attrs_none ci _ (stop_point _)]
  simp only [match1, show (['.'] : List Char).contains '.' = true from rfl, if_true, portsNamed]
  rw [skip1b_hit _ _ _ (by decide) (by decide)]
  simp only [if_true]
  rw [mangle_next hp, id_read '(' ['('] p _ (by simp) (by decide) (by decide) hp]
  simp only
  rw [skip1b_hit _ _ _ (by decide) (by decide), skipbl_cons _ (by decide)]
  have e3 : getId [')'] ('\\' :: w) = none := by
    unfold getId
    simp only
    rw [skipbl_cons _ (by decide), skip1b_hit _ _ _ (by decide) (by decide)]
    simp only [if_true]
    have e4 : skipbl w = w := by
      cases w with
      | nil => rfl
      | cons c w => exact skipbl_cons _ (hw c (by simp))
    rw [e4, List.dropWhile_eq_nil_iff.mpr (fun c hc => by rw [graph_not_gap (hw c hc)]; rfl)]
  simp only
  rw [e3]
  rfl

-- `res #() R1 (.p(\a);`
example (ci : Bool) : parseInst ci (['r', 'e', 's'] ++ ([' ', '#', '(', ')', ' '] ++ (['R', '1'] ++ ([' ', '(', '.'] ++ (mangle ['p'] ++
    ('(' :: '\\' :: ['a', ')', ';'])))))) = none :=
  escape_unended ci _ _ _ _ (plain_of _ (by decide)) (plain_of _ (by decide)) (.inl ⟨'p', [], rfl, by decide, by decide, by decide⟩) (by decide)

/-! ## Ports by order -/

/-- a node that can be given by order -/
structure OrdOk (v : List Char) : Prop where
  ident : Ident [',', ')'] v
  first : ∀ c r, v = c :: r → alnumAt c = true ∨ c = '\\'

/-- nodes, each with a comma and perhaps blanks behind it -/
def lead (l : List (List Char × List Char)) : List Char := l.flatMap fun a => mangle a.1 ++ (',' :: a.2)

theorem alnumAt_not (c d : Char) (h : alnumAt c = true) (hd : alnumAt d = false) : c ≠ d := by
  rintro rfl; rw [h] at hd; cases hd

theorem isDigit_alnumAt {c : Char} (h : isDigit c = true) : alnumAt c = true := by
  unfold isDigit at h
  simp only [Bool.and_eq_true, decide_eq_true_eq] at h
  unfold alnumAt
  rw [Nat.mod_eq_of_lt (by omega), Char.ofNat_toNat]
  unfold isAlnum
  simp; omega

/-- how a node by order begins -/
theorem ord_head {v : List Char} (h : OrdOk v) (z : List Char) : ∃ c r, mangle v ++ z = c :: r ∧ isGraph c = true ∧ (alnumAt c = true ∨ c = '\\') := by
  obtain ⟨hi, hf⟩ := h
  rcases hi with ⟨c, r, rfl, hd, hb, ha⟩ | ⟨c, r, rfl, hd, ha⟩ | ⟨c, r, rfl, hg, ha, d, hd, hn⟩
  · exact ⟨c, r ++ z, by simp [mangle, hd, hb], (ha c (by simp)).1, hf c r rfl⟩
  · exact ⟨'\\', c :: r ++ ' ' :: z, by simp [mangle, hd], by decide, .inr rfl⟩
  · exact ⟨'\\', c :: r ++ ' ' :: z, by simp [mangle, show isDigit '\\' = false from rfl], by decide, .inr rfl⟩

theorem ord_stop {v : List Char} (h : OrdOk v) (z : List Char) : Stop (mangle v ++ z) := by
  obtain ⟨c, r, e, hg, hc⟩ := ord_head h z
  rw [e]
  rcases hc with hc | rfl
  · exact Stop.of_head hg (alnumAt_not c ',' hc (by decide)) (alnumAt_not c '(' hc (by decide))
  · exact Stop.of_head (by decide) (by decide) (by decide)

theorem ord_get {v : List Char} (h : Ident [',', ')'] v) (b z : List Char) (hb : ∀ c ∈ b, isSpace c = true) (hz : Next z) :
    ∃ y, getId [',', ')'] (mangle v ++ ',' :: (b ++ z)) = some (v, y) ∧ (skip1b [','] y).2 = z := by
  have hcom : skipcom (',' :: (b ++ z)) = z := by
    have := skipcom_gap ⟨[], true, b⟩ ⟨by simp, hb⟩ z hz
    simpa [Gap.text] using this
  have hmiss : (skip1b [','] z).2 = z := by
    rcases hz with rfl | ⟨c, r, rfl, hg, hc⟩
    · rfl
    · rw [skip1b_miss _ _ _ hg (by simpa using hc)]
  have hhit : (skip1b [','] (',' :: (b ++ z))).2 = z := by
    rw [skip1b_hit _ _ _ (by decide) (by decide), skipbl_blanks _ _ hb, hz.skipbl]
  rcases h with ⟨c, r, rfl, hd, hbs, ha⟩ | ⟨c, r, rfl, hd, ha⟩ | ⟨c, r, rfl, hg, ha, d, hd, hn⟩
  · have em : mangle (c :: r) = c :: r := by simp [mangle, hd, hbs]
    have hg := (ha c (by simp)).1
    refine ⟨z, ?_, hmiss⟩
    rw [em]
    unfold getId
    simp only [List.cons_append]
    rw [skipbl_cons _ hg, skip1b_miss _ _ _ hg (by simpa using hbs)]
    simp only [Bool.false_eq_true, if_false]
    rw [← List.cons_append, ctos_plain _ [] (c :: r) (',' :: (b ++ z)) (by simp) (fun d h => (ha d h).1)
      (fun d h => by simpa using (ha d h).2) (fun _ _ => rfl) ?_, hcom]
    intro d h
    simp only [List.head?_cons, Option.some.injEq] at h
    subst h
    rfl
  · refine ⟨',' :: (b ++ z), ?_, hhit⟩
    have em : mangle (c :: r) ++ ',' :: (b ++ z) = '\\' :: c :: r ++ ' ' :: ',' :: (b ++ z) := by simp [mangle, hd]
    rw [em, getId_escaped _ c r _ (alnum_not_gap (ha c (by simp))).2 (fun d h => (alnum_not_gap (ha d h)).1),
      if_pos (by rw [List.all_eq_true]; exact ha)]
  · refine ⟨',' :: (b ++ z), ?_, hhit⟩
    have em : mangle ('\\' :: c :: r) ++ ',' :: (b ++ z) = '\\' :: c :: r ++ ' ' :: ',' :: (b ++ z) := by
      simp [mangle, show isDigit '\\' = false from rfl]
    rw [em, getId_escaped _ c r _ hg ha, if_neg]
    rw [List.all_eq_true]
    intro h
    rw [h d hd] at hn
    cases hn

theorem ord_lead (ci : Bool) (z : List Char) (hz : Stop z) : ∀ (l : List (List Char × List Char)) (n : ℕ),
    (∀ a ∈ l, OrdOk a.1 ∧ ∀ c ∈ a.2, isSpace c = true) →
    portsOrdered ci (l.length + n) [] (lead l ++ z) = (portsOrdered ci n [] z).map fun t => (l.map (⟨[], [], ·.1⟩) ++ t.1, t.2)
  | [], n, _ => by simp [lead]
  | (v, b) :: l, n, h => by
    obtain ⟨hv, hb⟩ := h (v, b) (by simp)
    have hl : ∀ a ∈ l, OrdOk a.1 ∧ ∀ c ∈ a.2, isSpace c = true := fun a ha => h a (by simp [ha])
    have e : lead ((v, b) :: l) ++ z = mangle v ++ ',' :: (b ++ (lead l ++ z)) := by simp [lead]
    have hs : Stop (lead l ++ z) := by
      cases l with
      | nil => exact hz
      | cons a l =>
        have : lead (a :: l) ++ z = mangle a.1 ++ (',' :: a.2 ++ (lead l ++ z)) := by simp [lead]
        rw [this]
        exact ord_stop (hl a (by simp)).1 _
    obtain ⟨y, hy, hc⟩ := ord_get hv.ident b _ hb hs.1
    obtain ⟨c, r, ec, hg, hc1⟩ := ord_head hv (',' :: (b ++ (lead l ++ z)))
    rw [e, show ((v, b) :: l).length + n = (l.length + n) + 1 from by simp; omega]
    rw [ec] at hy ⊢
    simp only [portsOrdered]
    rw [if_pos (by rcases hc1 with h | rfl <;> simp [*]), hy]
    simp only
    rw [hc]
    unfold attrs
    rw [attrs_none ci _ hs]
    simp only
    rw [ord_lead ci z hz l n hl]
    cases portsOrdered ci n [] z <;> simp

theorem lead_length (l : List (List Char × List Char)) : l.length ≤ (lead l).length := by
  induction l with
  | nil => simp
  | cons a l ih =>
    have : lead (a :: l) = mangle a.1 ++ (',' :: a.2) ++ lead l := by simp [lead]
    rw [this]
    simp only [List.length_append, List.length_cons]
    omega

theorem match1_stop (c : Char) (r : List Char) (h : c ≠ '.') : match1 ['.'] (c :: r) = false := by simp [match1, h]

/-- **C77, ports by order**: nodes with commas between them, in parentheses, are given in that order. -/
theorem ordered_read (ci : Bool) (l : List (List Char × List Char)) (v z : List Char) (hl : ∀ a ∈ l, OrdOk a.1 ∧ ∀ c ∈ a.2, isSpace c = true)
    (hv : OrdOk v) :
    ports ci ('(' :: (lead l ++ (mangle v ++ ')' :: z))) = some (.ordered (l.map (⟨[], [], ·.1⟩) ++ [⟨[], [], v⟩]), skipbl z) := by
  have hs : ∃ c r, lead l ++ (mangle v ++ ')' :: z) = c :: r ∧ isGraph c = true ∧ (alnumAt c = true ∨ c = '\\') := by
    cases l with
    | nil => exact ord_head hv _
    | cons a l =>
      have : lead (a :: l) ++ (mangle v ++ ')' :: z) = mangle a.1 ++ (',' :: a.2 ++ (lead l ++ (mangle v ++ ')' :: z))) := by simp [lead]
      rw [this]
      exact ord_head (hl a (by simp)).1 _
  obtain ⟨c, r, ec, hg, hc⟩ := hs
  have hst : Stop (c :: r) := by
    rcases hc with hc | rfl
    · exact Stop.of_head hg (alnumAt_not c ',' hc (by decide)) (alnumAt_not c '(' hc (by decide))
    · exact Stop.of_head (by decide) (by decide) (by decide)
  have hp : c ≠ '.' := by
    rcases hc with hc | rfl
    · exact alnumAt_not c '.' hc (by decide)
    · decide
  have hlast : ∀ n, portsOrdered ci (n + 2) [] (mangle v ++ ')' :: z) = some ([⟨[], [], v⟩], ')' :: z) := by
    intro n
    have hy := id_read ')' [',', ')'] v z (by simp) (by decide) (by decide) hv.ident
    obtain ⟨c', r', ec', hg', hc'⟩ := ord_head hv (')' :: z)
    rw [ec'] at hy ⊢
    rw [show n + 2 = (n + 1) + 1 from rfl]
    conv_lhs => unfold portsOrdered
    simp only
    rw [if_pos (by rcases hc' with h | rfl <;> simp [*]), hy]
    simp only
    rw [skip1b_miss _ _ _ (by decide) (by decide)]
    unfold attrs
    rw [attrs_none ci _ (stop_close z)]
    simp only [portsOrdered, show (alnumAt ')' || decide (')' = '\\')) = false from rfl, Bool.false_eq_true, if_false, Option.map_some]
  obtain ⟨k, hk⟩ : ∃ k, (lead l ++ (mangle v ++ ')' :: z)).length + 1 = l.length + (k + 2) := by
    have h1 := lead_length l
    obtain ⟨c', r', ec', -, -⟩ := ord_head hv (')' :: z)
    have h2 : 1 ≤ (mangle v ++ ')' :: z).length := by rw [ec']; simp
    refine ⟨(lead l ++ (mangle v ++ ')' :: z)).length + 1 - l.length - 2, ?_⟩
    rw [List.length_append]
    omega
  unfold ports
  rw [skip1b_hit _ _ _ (by decide) (by decide), ec, skipbl_cons _ hg]
  simp only [if_true]
  unfold attrs
  rw [attrs_none ci _ hst]
  simp only
  rw [match1_stop c r hp]
  simp only [Bool.false_eq_true, if_false]
  rw [← ec, hk, ord_lead ci _ (ord_stop hv _) l _ hl, hlast]
  simp only [Option.map_some]
  rw [skip1b_hit _ _ _ (by decide) (by decide)]

-- `(a, \12 )` with `;` behind it
example (ci : Bool) : ports ci ('(' :: (lead [(['a'], [' '])] ++ (mangle ['1', '2'] ++ ')' :: [';']))) =
    some (.ordered [⟨[], [], ['a']⟩, ⟨[], [], ['1', '2']⟩], [';']) :=
  ordered_read ci _ _ _ (by
    intro a ha
    simp only [List.mem_singleton] at ha
    subst ha
    exact ⟨⟨.inl ⟨'a', [], rfl, by decide, by decide, by decide⟩, by rintro c r h; injection h with h _; subst h; decide⟩, by decide⟩)
    ⟨ident_12 _, by rintro c r h; injection h with h _; subst h; decide⟩

/-- **C77, violated**: a name that begins with an underscore ends the nodes given by order, it and those behind it are left over. -/
theorem underscore_lost (ci : Bool) (l : List (List Char × List Char)) (w : List Char) (hl : ∀ a ∈ l, OrdOk a.1 ∧ ∀ c ∈ a.2, isSpace c = true) :
    ports ci ('(' :: (lead l ++ '_' :: w)) = some (.ordered (l.map (⟨[], [], ·.1⟩)), '_' :: w) := by
  have hu : Stop ('_' :: w) := Stop.of_head (by decide) (by decide) (by decide)
  have hs : ∃ c r, lead l ++ '_' :: w = c :: r ∧ isGraph c = true ∧ c ≠ '.' ∧ Stop (c :: r) := by
    cases l with
    | nil => exact ⟨'_', w, rfl, by decide, by decide, hu⟩
    | cons a l =>
      have : lead (a :: l) ++ '_' :: w = mangle a.1 ++ (',' :: a.2 ++ (lead l ++ '_' :: w)) := by simp [lead]
      obtain ⟨c, r, ec, hg, hc⟩ := ord_head (hl a (by simp)).1 (',' :: a.2 ++ (lead l ++ '_' :: w))
      rw [this]
      refine ⟨c, r, ec, hg, ?_, ?_⟩
      · rcases hc with hc | rfl
        · exact alnumAt_not c '.' hc (by decide)
        · decide
      · rw [← ec]; exact ord_stop (hl a (by simp)).1 _
  obtain ⟨c, r, ec, hg, hp, hst⟩ := hs
  obtain ⟨k, hk⟩ : ∃ k, (lead l ++ '_' :: w).length + 1 = l.length + (k + 1) := by
    have h1 := lead_length l
    exact ⟨(lead l ++ '_' :: w).length - l.length, by rw [List.length_append]; omega⟩
  unfold ports
  rw [skip1b_hit _ _ _ (by decide) (by decide), ec, skipbl_cons _ hg]
  simp only [if_true]
  unfold attrs
  rw [attrs_none ci _ hst]
  simp only
  rw [match1_stop c r hp]
  simp only [Bool.false_eq_true, if_false]
  rw [← ec, hk, ord_lead ci _ hu l _ hl]
  simp only [portsOrdered, show (alnumAt '_' || decide ('_' = '\\')) = false from rfl, Bool.false_eq_true, if_false, Option.map_some, List.append_nil]
  rw [skip1b_miss _ _ _ (by decide) (by decide)]

-- `(a, _b);`
example (ci : Bool) : ports ci ('(' :: (lead [(['a'], [' '])] ++ '_' :: ['b', ')', ';'])) = some (.ordered [⟨[], [], ['a']⟩], ['_', 'b', ')', ';']) :=
  underscore_lost ci _ _ (by
    intro a ha
    simp only [List.mem_singleton] at ha
    subst ha
    exact ⟨⟨.inl ⟨'a', [], rfl, by decide, by decide, by decide⟩, by rintro c r h; injection h with h _; subst h; decide⟩, by decide⟩)

/-! ## Modules -/

/-- `module` and a blank -/
theorem module_word (ci : Bool) (s : List Char) (hs : Next s) :
    umatch ci ['m', 'o', 'd', 'u', 'l', 'e', ' ', '|', 'm', 'a', 'c', 'r', 'o', 'm', 'o', 'd', 'u', 'l', 'e', ' ']
      (['m', 'o', 'd', 'u', 'l', 'e', ' '] ++ s) = .ok s := by
  have e : ['m', 'o', 'd', 'u', 'l', 'e', ' ', '|', 'm', 'a', 'c', 'r', 'o', 'm', 'o', 'd', 'u', 'l', 'e', ' '] =
    altText [[.lit 'm', .lit 'o', .lit 'd', .lit 'u', .lit 'l', .lit 'e', .delim],
      [.lit 'm', .lit 'a', .lit 'c', .lit 'r', .lit 'o', .lit 'm', .lit 'o', .lit 'd', .lit 'u', .lit 'l', .lit 'e', .delim]] := rfl
  have hb : skipbl (' ' :: s) = s := by
    rw [show ' ' :: s = [' '] ++ s from rfl, skipbl_blanks _ _ (by decide), hs.skipbl]
  rw [e, umatch_first_partial ci _ (by simp) (by decide) (['m', 'o', 'd', 'u', 'l', 'e', ' '] ++ s) (skipbl_cons _ (by decide))]
  simp [firstMatch, segMatch, eqc, isTerm, show isTermChar ' ' = true from rfl, hb, hs.skipcom]

/-- **C77, modules**: the header that is listed gives the name and the ports. -/
theorem header_read (ci : Bool) (attr label : List Char) (l : List Conn) (ha : AttrOk attr) (hn : Plain label) (hl : ∀ c ∈ l, PortOk c) :
    parseHeader ci (listHeader attr label l) = some ⟨attr, some label, given l, []⟩ := by
  have hst : ∀ r, Stop (['m', 'o', 'd', 'u', 'l', 'e', ' '] ++ r) := fun r => Stop.of_head (by decide) (by decide) (by decide)
  unfold parseHeader listHeader
  rw [attrs_read ci _ _ ha (hst _)]
  simp only
  rw [module_word ci _ (hn.next _)]
  simp only
  rw [word_plain _ _ hn rfl]
  simp only
  have e2 : ∀ s, skipcom ([' ', '('] ++ s) = '(' :: s := fun s =>
    skipcom_gap ⟨[' '], false, []⟩ ⟨by decide, by decide⟩ ('(' :: s) (.inr ⟨'(', _, rfl, by decide, by decide⟩)
  rw [e2, ports_read ci _ hl, skipbl_cons _ (by decide), Option.map_some, skip1b_hit _ _ _ (by decide) (by decide), if_neg hn.ne]
  rfl

example (ci : Bool) : parseHeader ci (listHeader [] ['m'] sampleInst.ports) = some ⟨[], some ['m'], .named sampleInst.ports, []⟩ :=
  header_read ci [] ['m'] _ (.inl rfl) (plain_of _ (by decide)) sample_listable.ports

theorem proto_loop : ∀ (l : List Conn) (done : List (List Char × List Char)), done.length ≤ 100 →
    protoPorts done l = if done.length + l.length ≤ 100 then some (done ++ l.map fun c => (c.name, c.value)) else none
  | [], done, h => by simp [protoPorts, h]
  | c :: l, done, h => by
    have hm : maxPorts = 100 := rfl
    simp only [protoPorts]
    by_cases h1 : done.length < maxPorts
    · rw [if_pos h1, proto_loop l _ (by simp; omega)]
      simp only [List.length_append, List.length_cons, List.length_nil, List.append_assoc, List.map_cons]
      congr 1
      simp; omega
    · rw [if_neg h1, if_neg (by simp; omega)]

/-- **C77, modules**: the ports of the module are those of the header, in order, up to a hundred of them. -/
theorem module_ports_partial (l : List Conn) (h : l.length ≤ 100) : protoPorts [] l = some (l.map fun c => (c.name, c.value)) := by
  rw [proto_loop l [] (by simp), if_pos (by simpa using h)]
  rfl

/-- **C77, violated**: a header with more ports by name than that is written outside of the table of names, without a message. -/
theorem module_overrun (ci : Bool) (attr label : List Char) (l : List Conn) (ha : AttrOk attr) (hn : Plain label) (hl : ∀ c ∈ l, PortOk c)
    (h : 100 < l.length) : (parseHeader ci (listHeader attr label l)).map (·.ports) = some (.named l) ∧ protoPorts [] l = none := by
  constructor
  · rw [header_read ci attr label l ha hn hl]
    have : l ≠ [] := by rintro rfl; simp at h
    simp [given, this]
  · rw [proto_loop l [] (by simp), if_neg (by simp; omega)]

-- a hundred and one ports
example (ci : Bool) : (parseHeader ci (listHeader [] ['m'] (List.replicate 101 ⟨[], ['p'], ['1', '2']⟩))).map (·.ports) =
    some (.named (List.replicate 101 ⟨[], ['p'], ['1', '2']⟩)) ∧ protoPorts [] (List.replicate 101 ⟨[], ['p'], ['1', '2']⟩) = none :=
  module_overrun ci [] ['m'] _ (.inl rfl) (plain_of _ (by decide))
    (fun c hc => by rw [List.eq_of_mem_replicate hc]; exact ⟨.inl rfl, .inl ⟨'p', [], rfl, by decide, by decide, by decide⟩, ident_12 _⟩)
    (by rw [List.length_replicate]; decide)

/-! ## Paramsets -/

theorem skip1b_skipbl (set s : List Char) : skip1b set (skipbl s) = skip1b set s := by unfold skip1b; rw [skipbl_idem]

theorem set_skipbl (n : ℕ) (s : List Char) : setArgs (n + 1) (skipbl s) = setArgs (n + 1) s := by simp only [setArgs, skip1b_skipbl]

theorem skip1b_blank (set s : List Char) : skip1b set (' ' :: s) = skip1b set s := by
  rw [← skip1b_skipbl, show ' ' :: s = [' '] ++ s from rfl, skipbl_blanks _ _ (by decide), skip1b_skipbl]

/-- one argument -/
theorem set_step (n : ℕ) (nm v rest : List Char) (hn : Plain nm) (hv : Plain v) (hr : isTerm rest = true) :
    setArgs (n + 1) ([' ', '.'] ++ (nm ++ (['='] ++ (v ++ rest)))) =
      ((nm, v) :: (setArgs n (skip1b [';'] (skipcom rest)).2).1, (setArgs n (skip1b [';'] (skipcom rest)).2).2) := by
  simp only [setArgs, List.cons_append, List.nil_append]
  rw [skip1b_blank, skip1b_hit _ _ _ (by decide) (by decide), (hn.next _).skipbl]
  simp only [if_true]
  rw [word_plain nm ('=' :: (v ++ rest)) hn rfl]
  simp only
  rw [Next.skipcom (.inr ⟨'=', _, rfl, by decide, by decide⟩), skip1b_hit _ _ _ (by decide) (by decide), (hv.next _).skipbl,
    word_plain v rest hv hr]

/-- arguments that can be listed -/
def ArgsOk (args : List (List Char × List Char)) : Prop := ∀ a ∈ args, Plain a.1 ∧ Plain a.2

theorem set_lead : ∀ (args : List (List Char × List Char)) (n : ℕ) (z : List Char), ArgsOk args →
    setArgs (args.length + (n + 1)) (args.flatMap argText ++ z) = (args ++ (setArgs (n + 1) z).1, (setArgs (n + 1) z).2)
  | [], n, z, _ => by simp
  | a :: args, n, z, h => by
    obtain ⟨hn, hv⟩ := h a (by simp)
    have e : (a :: args).flatMap argText ++ z = [' ', '.'] ++ (a.1 ++ (['='] ++ (a.2 ++ (';' :: (args.flatMap argText ++ z))))) := by
      simp [argText]
    have el : (a :: args).length + (n + 1) = (args.length + (n + 1)) + 1 := by simp; omega
    rw [e, el, set_step _ _ _ _ hn hv rfl, Next.skipcom (.inr ⟨';', _, rfl, by decide, by decide⟩), skip1b_hit _ _ _ (by decide) (by decide)]
    simp only
    rw [show args.length + (n + 1) = (args.length + n) + 1 from by omega, set_skipbl,
      show args.length + n + 1 = args.length + (n + 1) from by omega, set_lead args n z fun b hb => h b (by simp [hb])]
    simp

theorem flat_length (args : List (List Char × List Char)) : args.length ≤ (args.flatMap argText).length := by
  induction args with
  | nil => simp
  | cons a l ih => simp only [List.flatMap_cons, List.length_append, List.length_cons, argText]; omega

def endSegs : List Seg :=
  [.lit 'e', .lit 'n', .lit 'd', .lit 'p', .lit 'a', .lit 'r', .lit 'a', .lit 'm', .lit 's', .lit 'e', .lit 't', .delim]

theorem end_text (ci : Bool) (s : List Char) : umatch ci ['e', 'n', 'd', 'p', 'a', 'r', 'a', 'm', 's', 'e', 't', ' '] s =
    match segMatch ci endSegs (skipbl s) with
    | some r => .ok (skipcom r)
    | none => .fail :=
  umatch_single ci endSegs (by decide) s

/-- an empty line, or one with arguments only -/
theorem loop_line (ci : Bool) (args : List (List Char × List Char)) (h : ArgsOk args) (l : List Char) (ls : List (List Char)) :
    setLoop ci (args.flatMap argText) (l :: ls) = (args ++ (setLoop ci l ls).1, (setLoop ci l ls).2) := by
  have e : setArgs ((args.flatMap argText).length + 1) (args.flatMap argText) = (args, []) := by
    have hl := flat_length args
    obtain ⟨k, hk⟩ : ∃ k, (args.flatMap argText).length + 1 = args.length + (k + 1) := ⟨(args.flatMap argText).length - args.length, by omega⟩
    have := set_lead args k [] h
    rw [List.append_nil] at this
    rw [hk, this]
    simp [setArgs, skip1b, skipbl, match1]
  conv_lhs => unfold setLoop
  simp only
  rw [e, end_text]
  simp only [skipbl, endSegs, segMatch, if_true]

theorem loop_end (ci : Bool) : setLoop ci ['e', 'n', 'd', 'p', 'a', 'r', 'a', 'm', 's', 'e', 't'] [] = ([], .done) := by
  have e : ∀ n, setArgs (n + 1) ['e', 'n', 'd', 'p', 'a', 'r', 'a', 'm', 's', 'e', 't'] =
      ([], ['e', 'n', 'd', 'p', 'a', 'r', 'a', 'm', 's', 'e', 't']) := by
    intro n
    simp only [setArgs]
    rw [skip1b_miss ['.'] 'e' _ (by decide) (by decide)]
    simp
  unfold setLoop
  simp only
  rw [e, end_text]
  simp [skipbl, endSegs, segMatch, eqc, isTerm, show isGraph 'e' = true from rfl]

def setSegs : List Seg := [.lit 'p', .lit 'a', .lit 'r', .lit 'a', .lit 'm', .lit 's', .lit 'e', .lit 't', .delim]

theorem set_word (ci : Bool) (s : List Char) (hs : Next s) :
    umatch ci ['p', 'a', 'r', 'a', 'm', 's', 'e', 't', ' '] (['p', 'a', 'r', 'a', 'm', 's', 'e', 't', ' '] ++ s) = .ok s := by
  have hb : skipbl (' ' :: s) = s := by
    rw [show ' ' :: s = [' '] ++ s from rfl, skipbl_blanks _ _ (by decide), hs.skipbl]
  have e : ['p', 'a', 'r', 'a', 'm', 's', 'e', 't', ' '] = segText setSegs := rfl
  conv_lhs => arg 2; rw [e]
  rw [umatch_single ci setSegs (by decide), List.cons_append, skipbl_cons _ (by decide)]
  simp [setSegs, segMatch, eqc, isTerm, show isTermChar ' ' = true from rfl, hb, hs.skipcom]

/-- the first line -/
theorem set_first (ci : Bool) (attr label type : List Char) (ha : AttrOk attr) (hl : Plain label) (ht : Plain type) (lines : List (List Char)) :
    parseSet ci (attrText attr ++ (['p', 'a', 'r', 'a', 'm', 's', 'e', 't', ' '] ++ (label ++ ([' '] ++ (type ++ [';']))))) lines =
      ⟨attr, some label, type, (setLoop ci [] lines).1, (setLoop ci [] lines).2⟩ := by
  have hst : ∀ r, Stop (['p', 'a', 'r', 'a', 'm', 's', 'e', 't', ' '] ++ r) := fun r => Stop.of_head (by decide) (by decide) (by decide)
  unfold parseSet
  rw [attrs_read ci _ _ ha (hst _)]
  simp only
  rw [set_word ci _ (hl.next _)]
  simp only
  rw [word_plain _ _ hl rfl]
  simp only
  have e2 : skipcom ([' '] ++ (type ++ [';'])) = type ++ [';'] := skipcom_gap ⟨[' '], false, []⟩ ⟨by decide, by decide⟩ _ (ht.next _)
  rw [e2, word_plain _ _ ht rfl, if_neg hl.ne]
  have e3 : (skip1b [';'] (skipcom [';'])).2 = [] := by decide
  simp only [e3]

/-- **C77, paramsets**: what is listed is read again, if every value is one word. -/
theorem paramset_read_partial (ci : Bool) (attr label type : List Char) (args : List (List Char × List Char)) (ha : AttrOk attr) (hl : Plain label)
    (ht : Plain type) (h : ArgsOk args) :
    ∃ first more, listSet attr label type args = first :: more ∧ parseSet ci first more = ⟨attr, some label, type, args, .done⟩ := by
  refine ⟨_, _, rfl, ?_⟩
  rw [set_first ci attr label type ha hl ht]
  have e := loop_line ci [] (by intro a h; cases h) (args.flatMap argText) [['e', 'n', 'd', 'p', 'a', 'r', 'a', 'm', 's', 'e', 't']]
  rw [List.flatMap_nil] at e
  rw [e, loop_line ci args h, loop_end]
  simp

theorem sample_args : ArgsOk [(['i', 's'], ['1', 'e', '-', '1', '4']), (['n'], ['2'])] := by
  intro a ha
  simp only [List.mem_cons, List.not_mem_nil, or_false] at ha
  rcases ha with rfl | rfl <;> exact ⟨plain_of _ (by decide), plain_of _ (by decide)⟩

example (ci : Bool) : ∃ first more, listSet [] ['d'] ['D'] [(['i', 's'], ['1', 'e', '-', '1', '4']), (['n'], ['2'])] = first :: more ∧
    parseSet ci first more = ⟨[], some ['d'], ['D'], [(['i', 's'], ['1', 'e', '-', '1', '4']), (['n'], ['2'])], .done⟩ :=
  paramset_read_partial ci [] ['d'] ['D'] _ (.inl rfl) (plain_of _ (by decide)) (plain_of _ (by decide)) sample_args

/-- **C77, violated**: a value with a parenthesis, brace or equal sign in it, as an expression has, is cut there; the arguments behind it
are lost, and the paramset is not read to its end. -/
theorem paramset_cut (ci : Bool) (attr label type : List Char) (pre post : List (List Char × List Char)) (nm p q : List Char) (t : Char)
    (ha : AttrOk attr) (hl : Plain label) (ht : Plain type) (h : ArgsOk pre) (hn : Plain nm) (hp : Plain p)
    (hc : t = '(' ∨ t = ')' ∨ t = '{' ∨ t = '}' ∨ t = '=') :
    ∃ first more left, listSet attr label type (pre ++ (nm, p ++ t :: q) :: post) = first :: more ∧
      parseSet ci first more = ⟨attr, some label, type, pre ++ [(nm, p)], .whatsThis left⟩ := by
  refine ⟨_, _, t :: (q ++ ';' :: post.flatMap argText), rfl, ?_⟩
  rw [set_first ci attr label type ha hl ht]
  have e := loop_line ci [] (by intro a h; cases h) ((pre ++ (nm, p ++ t :: q) :: post).flatMap argText)
    [['e', 'n', 'd', 'p', 'a', 'r', 'a', 'm', 's', 'e', 't']]
  rw [List.flatMap_nil] at e
  have hg : isGraph t = true := by rcases hc with rfl | rfl | rfl | rfl | rfl <;> decide
  have htm : isTermChar t = true := by rcases hc with rfl | rfl | rfl | rfl | rfl <;> decide
  have hne : t ≠ ',' ∧ t ≠ ';' ∧ t ≠ '.' := by rcases hc with rfl | rfl | rfl | rfl | rfl <;> decide
  generalize hz : t :: (q ++ ';' :: post.flatMap argText) = z
  have et : (pre ++ (nm, p ++ t :: q) :: post).flatMap argText = pre.flatMap argText ++ ([' ', '.'] ++ (nm ++ (['='] ++ (p ++ z)))) := by
    rw [← hz]; simp [argText]
  have hzt : isTerm z = true := by rw [← hz]; exact htm
  have hzn : Next z := .inr ⟨t, _, hz.symm, hg, hne.1⟩
  have hzs : ∀ c, c ≠ t → skip1b [c] z = (false, z) := by
    intro c hc
    rw [← hz, skip1b_miss _ _ _ hg (by simpa using Ne.symm hc)]
  have ea : ∀ n, setArgs (pre.length + (n + 3)) (pre.flatMap argText ++ ([' ', '.'] ++ (nm ++ (['='] ++ (p ++ z))))) = (pre ++ [(nm, p)], z) := by
    intro n
    rw [show n + 3 = (n + 2) + 1 from rfl, set_lead pre (n + 2) _ h, set_step _ _ _ _ hn hp hzt, hzn.skipcom, hzs ';' (Ne.symm hne.2.1)]
    simp only [setArgs]
    rw [hzs '.' (Ne.symm hne.2.2)]
    simp
  have es : setLoop ci ((pre ++ (nm, p ++ t :: q) :: post).flatMap argText) [['e', 'n', 'd', 'p', 'a', 'r', 'a', 'm', 's', 'e', 't']] =
      (pre ++ [(nm, p)], .whatsThis z) := by
    rw [et]
    obtain ⟨k, hk⟩ : ∃ k, (pre.flatMap argText ++ ([' ', '.'] ++ (nm ++ (['='] ++ (p ++ z))))).length + 1 = pre.length + (k + 3) := by
      have := flat_length pre
      refine ⟨(pre.flatMap argText).length - pre.length + nm.length + 1 + p.length + z.length, ?_⟩
      simp only [List.length_append, List.length_cons, List.length_nil]
      omega
    unfold setLoop
    simp only
    rw [hk, ea, end_text]
    simp only
    rw [hzn.skipbl]
    have em : segMatch ci endSegs z = none := by
      rw [← hz]
      simp only [endSegs, segMatch]
      rw [if_neg]
      intro h
      have := eqc_term ci t 'e' h htm
      rw [← this] at htm
      cases htm
    rw [em]
    simp only
    rw [if_neg (by rw [← hz]; simp)]
  rw [e, es]
  simp

-- `.is=2*(x+1); .n=2;`
example (ci : Bool) : ∃ first more left, listSet [] ['d'] ['D'] ([] ++ (['i', 's'], ['2', '*'] ++ '(' :: ['x', '+', '1', ')']) :: [(['n'], ['2'])]) = first :: more ∧
    parseSet ci first more = ⟨[], some ['d'], ['D'], [] ++ [(['i', 's'], ['2', '*'])], .whatsThis left⟩ :=
  paramset_cut ci [] ['d'] ['D'] [] _ _ _ _ _ (.inl rfl) (plain_of _ (by decide)) (plain_of _ (by decide)) (by intro a h; cases h)
    (plain_of _ (by decide)) (plain_of _ (by decide)) (.inl rfl)

end Gnucap.Vlog
