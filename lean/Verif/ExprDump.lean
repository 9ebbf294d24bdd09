import Verif.ExprShape

/-!
# Printing an expression and reading it back
-/
namespace Gnucap.Expr
open Gnucap.Scan Gnucap.Num

mutual
/-- the printed form of a tree -/
def disp (f15 : ℚ → List Char) : Ex → List Char
  | .name s => s
  | .const v => valString f15 v
  | .call f a => f ++ '(' :: (dispArgs f15 a ++ [')'])
  | .arr a => '\'' :: '{' :: (dispArgs f15 a ++ ['}'])
  | .un op e => '(' :: (op ++ ' ' :: (disp f15 e ++ [')']))
  | .bin op a b => '(' :: (disp f15 a ++ ' ' :: (op ++ ' ' :: (disp f15 b ++ [')'])))
  | .tern c t f => '(' :: (disp f15 c ++ ')' :: '?' :: ' ' :: '(' :: (disp f15 t ++ ')' :: ':' :: '(' :: (disp f15 f ++ [')'])))

def dispArgs (f15 : ℚ → List Char) : Args → List Char
  | .nil => []
  | .cons e .nil => disp f15 e
  | .cons e r => disp f15 e ++ ',' :: ' ' :: dispArgs f15 r
end

/-! ## the stack machine of `dump` prints the tree -/

def noParD : List DTok → Prop
  | .parlist _ :: _ => False
  | _ => True

theorem dumpList_append (f15 : ℚ → List Char) (l m : List Tok) (st : List DTok) :
    dumpList f15 (l ++ m) st = (dumpList f15 l st).bind (dumpList f15 m) := by
  induction l generalizing st with
  | nil => rw [List.nil_append, dumpList]; rfl
  | cons t l ih =>
    rw [List.cons_append, dumpList, dumpList]
    cases dumpStep f15 t st with
    | bad => rfl
    | ok s => exact ih s

def pushD (f15 : ℚ → List Char) : Args → List DTok → List DTok
  | .nil, st => st
  | .cons e r, st => pushD f15 r (.other (disp f15 e) :: st)

/-- the texts of arguments that are on the stack, with what is gathered so far -/
def joined (f15 : ℚ → List Char) (a : Args) (been : Bool) (tmp : List Char) : List Char :=
  dispArgs f15 a ++ (if been then (match a with
    | .nil => tmp
    | _ => ',' :: ' ' :: tmp) else tmp)

theorem dumpArgs_push (f15 : ℚ → List Char) (a : Args) (been : Bool) (tmp : List Char) (st : List DTok) :
    dumpArgs been tmp (pushD f15 a st) = dumpArgs (match a with
      | .nil => been
      | _ => true) (joined f15 a been tmp) st := by
  induction a using Args.rec (motive_1 := fun _ => True) generalizing st with
  | nil => simp [pushD, joined, dispArgs]
  | cons e r _ ih =>
    simp only [pushD]
    rw [ih]
    cases r with
    | nil => simp [dumpArgs, joined, dispArgs]
    | cons e2 r =>
      simp [dumpArgs, joined, dispArgs]
  | _ => trivial

theorem dd_nil (f15 : ℚ → List Char) (st : List DTok) : dumpList f15 [] st = .ok st := by rw [dumpList]
theorem dd_cons (f15 : ℚ → List Char) (t : Tok) (l : List Tok) (st : List DTok) :
    dumpList f15 (t :: l) st = (dumpStep f15 t st).bind (dumpList f15 l) := by rw [dumpList]

theorem dd_sym (f15 : ℚ → List Char) (s : List Char) (st : List DTok) (h : noParD st) : dumpStep f15 (.sym s) st = .ok (.other s :: st) := by
  match st, h with
  | [], _ => simp [dumpStep]
  | .other _ :: _, _ => simp [dumpStep]
  | .stop _ :: _, _ => simp [dumpStep]

theorem dd_const (f15 : ℚ → List Char) (v : Base.Val) (st : List DTok) (h : noParD st) :
    dumpStep f15 (.const v) st = .ok (.other (valString f15 v) :: st) := by
  match st, h with
  | [], _ => simp [dumpStep]
  | .other _ :: _, _ => simp [dumpStep]
  | .stop _ :: _, _ => simp [dumpStep]

theorem dd_par (f15 : ℚ → List Char) (s : List Char) (a : Args) (st : List DTok) :
    dumpStep f15 .parlist (pushD f15 a (.stop s :: st)) = .ok (.parlist (s ++ (dispArgs f15 a ++ [')'])) :: st) := by
  rw [dumpStep, dumpArgs_push]
  simp [dumpArgs, joined, DRes.bind]

theorem dd_arr (f15 : ℚ → List Char) (s : List Char) (a : Args) (st : List DTok) :
    dumpStep f15 .array (pushD f15 a (.stop s :: st)) = .ok (.other (s ++ (dispArgs f15 a ++ ['}'])) :: st) := by
  rw [dumpStep, dumpArgs_push]
  simp [dumpArgs, joined, DRes.bind]

theorem dd_bin (f15 : ℚ → List Char) (op a b : List Char) (st : List DTok) :
    dumpStep f15 (.bin op) (.other b :: .other a :: st) = .ok (.other ('(' :: (a ++ ' ' :: (op ++ ' ' :: (b ++ [')'])))) :: st) := by
  rw [dumpStep]; simp

theorem dd_un (f15 : ℚ → List Char) (op a : List Char) (st : List DTok) :
    dumpStep f15 (.un op) (.other a :: st) = .ok (.other ('(' :: (op ++ ' ' :: (a ++ [')']))) :: st) := by
  rw [dumpStep]; simp

theorem dd_tern (f15 : ℚ → List Char) (lt lf : List Tok) (c t f : List Char) (st : List DTok) (ht : dumpList f15 lt [] = .ok [.other t])
    (hf : dumpList f15 lf [] = .ok [.other f]) :
    dumpStep f15 (.tern lt lf) (.other c :: st) =
      .ok (.other ('(' :: (c ++ ')' :: '?' :: ' ' :: '(' :: (t ++ ')' :: ':' :: '(' :: (f ++ [')'])))) :: st) := by
  rw [dumpStep, ht, hf]; simp [DRes.bind]

theorem dr_ok {α β : Type} (a : α) (f : α → DRes β) : (DRes.ok a).bind f = f a := rfl

mutual
theorem dump_rpn (f15 : ℚ → List Char) : ∀ (e : Ex) (st : List DTok), noParD st → dumpList f15 (rpn e) st = .ok (.other (disp f15 e) :: st)
  | .name s, st, h => by rw [rpn, dd_cons, dd_sym f15 s st h, dr_ok, dd_nil, disp]
  | .const v, st, h => by rw [rpn, dd_cons, dd_const f15 v st h, dr_ok, dd_nil, disp]
  | .call f a, st, h => by
    rw [rpn_call, dd_cons, dumpStep, dr_ok, dumpList_append, dump_args f15 a (.stop ['('] :: st) trivial, dr_ok, dd_cons, dd_par, dr_ok,
      dd_cons, dumpStep, dr_ok, dd_nil, disp]
    simp
  | .arr a, st, h => by
    rw [rpn_arr, dd_cons, dumpStep, dr_ok, dumpList_append, dump_args f15 a (.stop ['\'', '{'] :: st) trivial, dr_ok, dd_cons, dd_arr, dr_ok,
      dd_nil, disp]
    simp
  | .un op e, st, h => by
    rw [rpn, dumpList_append, dump_rpn f15 e st h, dr_ok, dd_cons, dd_un, dr_ok, dd_nil, disp]
  | .bin op a b, st, h => by
    rw [rpn, dumpList_append, dumpList_append, dump_rpn f15 a st h, dr_ok, dump_rpn f15 b (.other (disp f15 a) :: st) trivial, dr_ok, dd_cons,
      dd_bin, dr_ok, dd_nil, disp]
  | .tern c t f, st, h => by
    rw [rpn, dumpList_append, dump_rpn f15 c st h, dr_ok, dd_cons,
      dd_tern f15 _ _ _ _ _ st (dump_rpn f15 t [] trivial) (dump_rpn f15 f [] trivial), dr_ok, dd_nil, disp]
theorem dump_args (f15 : ℚ → List Char) : ∀ (a : Args) (st : List DTok), noParD st → dumpList f15 (rpnArgs a) st = .ok (pushD f15 a st)
  | .nil, st, h => by rw [rpnArgs, dd_nil]; rfl
  | .cons e r, st, h => by
    rw [rpnArgs, dumpList_append, dump_rpn f15 e st h, dr_ok, dump_args f15 r (.other (disp f15 e) :: st) trivial]; rfl
end

/-- C39: what is printed is the printed form of the tree, for every tree -/
theorem dump_disp (f15 : ℚ → List Char) (e : Ex) : dump f15 (rpn e) = .ok (disp f15 e) := by
  unfold dump
  rw [dump_rpn f15 e [] trivial]

/-! ## the printed form is a text of the tree -/

def Ex.isTern : Ex → Bool
  | .tern _ _ _ => true
  | _ => false

mutual
/-- trees of texts, with no conditional as the operand of an operator -/
inductive Printable : Ex → Prop
  | name (s : List Char) (h : IsName s) : Printable (.name s)
  | str (s : List Char) (h : IsStr s) : Printable (.const (.vstr s))
  | call (f : List Char) (a : Args) (h : IsName f) (ha : PrintableArgs a) : Printable (.call f a)
  | arr (a : Args) (ha : PrintableArgs a) : Printable (.arr a)
  | un (op : Char) (e : Ex) (hop : op = '-' ∨ op = '+' ∨ op = '!') (h : Printable e) (ht : e.isTern = false) : Printable (.un [op] e)
  | bin (op : List Char) (p : ℕ) (a b : Ex) (hop : opLevel op = some p) (ha : Printable a) (hb : Printable b) (hta : a.isTern = false)
      (htb : b.isTern = false) : Printable (.bin op a b)
  | tern (c t f : Ex) (hc : Printable c) (ht : Printable t) (hf : Printable f) : Printable (.tern c t f)

inductive PrintableArgs : Args → Prop
  | nil : PrintableArgs .nil
  | cons (e : Ex) (r : Args) (h : Printable e) (hr : PrintableArgs r) : PrintableArgs (.cons e r)
end

theorem text_up (k r : ℕ) (e : Ex) (t : List Char) (hk : k + r ≤ 7) (h : Text (k + r) e t) : Text r e t := by
  induction k generalizing r with
  | zero => simpa using h
  | succ k ih => exact .up r e t (by omega) (ih (r + 1) (by omega) (by rwa [show k + (r + 1) = k + 1 + r by omega]))

theorem text_down {r : ℕ} {e : Ex} {t : List Char} (hr : r ≤ 7) (h : Text 7 e t) : Text r e t :=
  text_up (7 - r) r e t (by omega) (by rwa [show 7 - r + r = 7 by omega])

def Good (f15 : ℚ → List Char) (e : Ex) : Prop := Text 0 e (disp f15 e) ∧ (e.isTern = false → Text 7 e (disp f15 e))

def GoodArgs (f15 : ℚ → List Char) (a : Args) : Prop := a = .nil ∨ TextArgs a (dispArgs f15 a)

theorem good_of {f15 : ℚ → List Char} {e : Ex} (h : Text 7 e (disp f15 e)) : Good f15 e := ⟨text_down (by omega) h, fun _ => h⟩

theorem disp_text (f15 : ℚ → List Char) {e : Ex} (h : Printable e) : Good f15 e := by
  refine Printable.rec (motive_1 := fun e _ => Good f15 e) (motive_2 := fun a _ => GoodArgs f15 a) ?_ ?_ ?_ ?_ ?_ ?_ ?_ ?_ ?_ h
  · intro s h
    refine good_of ?_
    rw [disp]; exact .name s h
  · intro s h
    refine good_of ?_
    rw [disp]; simp only [valString]; exact .str s h
  · intro f a h ha ih
    refine good_of ?_
    rw [disp]
    rcases ih with rfl | ih
    · exact .call0 f [] [] h blank_nil blank_nil
    · exact .call f [] [] [] a _ h ih blank_nil blank_nil blank_nil
  · intro a ha ih
    refine good_of ?_
    rw [disp]
    rcases ih with rfl | ih
    · exact .arr0 [] [] blank_nil blank_nil
    · exact .arr [] [] [] a _ ih blank_nil blank_nil blank_nil
  · intro op e hop h ht ih
    refine good_of ?_
    rw [disp]
    have := Text.un op e _ [' '] hop (ih.2 ht) (by decide)
    have := Text.paren _ _ [] [] (text_up 6 0 _ _ (by omega) this) blank_nil blank_nil
    simpa using this
  · intro op p a b hop ha hb hta htb iha ihb
    refine good_of ?_
    rw [disp]
    obtain ⟨p1, p5⟩ := opLevel_range hop
    have := Text.bin p op a b _ _ [' '] [' '] hop (text_down (by omega) (iha.2 hta)) (text_down (by omega) (ihb.2 htb)) (by decide) (by decide)
    have := Text.paren _ _ [] [] (text_up p 0 _ _ (by omega) this) blank_nil blank_nil
    simpa using this
  · intro c t f hc ht hf ihc iht ihf
    refine ⟨?_, fun h => by cases h⟩
    rw [disp]
    have h1 := text_down (r := 1) (by omega) (Text.paren _ _ [] [] ihc.1 blank_nil blank_nil)
    have h2 := text_down (r := 0) (by omega) (Text.paren _ _ [] [] iht.1 blank_nil blank_nil)
    have h3 := text_down (r := 0) (by omega) (Text.paren _ _ [] [] ihf.1 blank_nil blank_nil)
    have := Text.tern c t f _ _ _ [] [' '] [] [] h1 h2 h3 blank_nil (by decide) blank_nil blank_nil
    simpa using this
  · exact Or.inl rfl
  · intro e r h hr ih ihr
    right
    rcases ihr with rfl | ihr
    · rw [dispArgs]; exact .one _ _ ih.1
    · cases r with
      | nil => rw [dispArgs]; exact .one _ _ ih.1
      | cons e2 r =>
        rw [dispArgs]
        · exact .cons _ _ _ _ [] [' '] ih.1 ihr blank_nil (by decide)
        · intro h; cases h

/-- C39: an expression with no conditional as an operand is printed, and read back from its print, as it was.  Missing: conditionals that are
operands (printed without parentheses around them, see `dump_tern_wrong`). -/
theorem dump_parse_partial (f15 : ℚ → List Char) (ci : Bool) (e : Ex) (h : Printable e) :
    ∃ t, dump f15 (rpn e) = .ok t ∧ parse ci t = .ok (rpn e, []) :=
  ⟨disp f15 e, dump_disp f15 e, parse_all ci e _ (disp_text f15 h).1⟩

/-- a conditional as an operand: `(x ? 1 : 2) + 3` -/
def ternSum : Ex := .bin ['+'] (.tern (.name ['x']) (.name ['1']) (.name ['2'])) (.name ['3'])

/-- C39 fails for it: it is printed as `((x)? (1):(2) + 3)`, and read back as `x ? 1 : 2 + 3` -/
theorem dump_tern_wrong : ¬ ∀ (ci : Bool) (e : Ex) (s : List Char), parse ci s = .ok (rpn e, []) →
    ∃ t, dump (fun _ => []) (rpn e) = .ok t ∧ parse ci t = .ok (rpn e, []) := by
  intro h
  obtain ⟨t, h1, h2⟩ := h false ternSum ['(', 'x', '?', '1', ':', '2', ')', '+', '3'] (by with_unfolding_all rfl)
  rw [dump_disp] at h1
  simp only [DRes.ok.injEq] at h1
  subst h1
  have h3 : parse false (disp (fun _ => []) ternSum) =
      .ok (rpn (.tern (.name ['x']) (.name ['1']) (.bin ['+'] (.name ['2']) (.name ['3']))), []) := by with_unfolding_all rfl
  rw [h3] at h2
  simp only [PRes.ok.injEq, Prod.mk.injEq, and_true] at h2
  have := rpn_injective _ _ h2
  cases this

/-- what is printed for it -/
example : dump (fun _ => []) (rpn ternSum) = .ok ['(', '(', 'x', ')', '?', ' ', '(', '1', ')', ':', '(', '2', ')', ' ', '+', ' ', '3', ')'] := by
  rw [dump_disp]; with_unfolding_all rfl

/-- `f(-a, b*2)` is printable -/
example : Printable (.call ['f'] (.cons (.un ['-'] (.name ['a'])) (.cons (.bin ['*'] (.name ['b']) (.name ['2'])) .nil))) :=
  .call _ _ (.ident 'f' [] (by decide) (by simp))
    (.cons _ _ (.un '-' _ (Or.inl rfl) (.name _ (.ident 'a' [] (by decide) (by simp))) rfl)
      (.cons _ _ (.bin ['*'] 5 _ _ rfl (.name _ (.ident 'b' [] (by decide) (by simp)))
        (.name _ (.num ['2'] [] (by decide) (by simp) (by simp) (by simp) (by simp))) rfl rfl) .nil))

end Gnucap.Expr
