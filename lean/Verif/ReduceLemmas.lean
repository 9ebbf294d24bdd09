import Verif.ReduceModel
import Verif.ExprShape

/-!
# Reducing tokens is reducing trees

`red` reduces a tree; the token machine of `ReduceModel` does the same on the reverse Polish form (`stackList_rpn`, `reduce_rpn`).
-/
set_option linter.unusedSimpArgs false
namespace Gnucap.Expr
open Gnucap.Scan Gnucap.Num

/-- the data of a tree that is a constant -/
def exVal : Ex → Option Base.Val
  | .const v => some v
  | _ => none

/-- the numbers of a list of arguments, if all are numbers -/
def allNum : Args → Option (List Base.Val)
  | .nil => some []
  | .cons e r =>
    match exVal e with
    | some v => if numeric v then (allNum r).map (v :: ·) else none
    | none => none

/-- all but the last, and the last -/
def unsnoc : Args → Option (Args × Ex)
  | .nil => none
  | .cons e r =>
    match unsnoc r with
    | none => some (.nil, e)
    | some (b, l) => some (.cons e b, l)

def binRed (op : List Char) : Ex → Ex → RRes Ex
  | .const v, .name s => if isAddMul op && !Base.isStr v then .ok (.bin op (.name s) (.const v)) else .ok (.bin op (.const v) (.name s))
  | .const a, .const b =>
    (binData op a b).bind fun
      | some v => .ok (.const v)
      | none => .ok (.bin op (.const a) (.const b))
  | .bin op2 p (.const z), .const b =>
    if op2 = op ∧ isAddMul op = true then
      (binData op z b).bind fun
        | some v => .ok (.bin op2 p (.const v))
        | none => .ok (.bin op (.bin op2 p (.const z)) (.const b))
    else .ok (.bin op (.bin op2 p (.const z)) (.const b))
  | a, b => .ok (.bin op a b)

def unRed (op : List Char) : Ex → RRes Ex
  | .const a =>
    (unData op a).bind fun
      | some v => .ok (.const v)
      | none => .ok (.un [] (.const a))
  | e => .ok (.un [] e)

def callRed (name : List Char) (a : Args) : Fn → RRes Ex
  | .usual ev =>
    match allNum a with
    | none => .ok (.call name a)
    | some vs =>
      match ev vs with
      | none => .ok (.call name a)
      | some q => .ok (.const (.flt q))
  | .one drops g =>
    match unsnoc a with
    | none => .ok (.call name a)
    | some (b, l) =>
      match exVal l with
      | none => .ok (.call name a)
      | some v =>
        if numeric v then
          match g v with
          | none => .special
          | some r =>
            match b with
            | .nil => .ok (.const r)
            | .cons _ _ => .ok (.call name a)
        else if drops then .ok (.call name b) else .ok (.call name a)

def nameRed (c : Ctx) (nest : Ex → RRes Ex) (s : List Char) : RRes Ex :=
  match c.par s with
  | none => .ok (.name s)
  | some p =>
    match parse c.ci p.text with
    | .ok (pp, _) =>
      match decList pp [] with
      | some [.ex e0] =>
        (nest e0).bind fun e =>
          match exVal e with
          | none => .ok e
          | some v =>
            (ofOut (assign p.ty v)).bind fun
              | some n => .ok (.const n)
              | none => .ok e
      | _ => .err
    | _ => .err

def symRed (c : Ctx) (nest : Ex → RRes Ex) (s : List Char) : RRes Ex :=
  if isNumber s then (numConst c s).bind fun v => .ok (.const v)
  else
    match s with
    | '"' :: r =>
      match quoted r with
      | some (d, _) => .ok (.const (.vstr d))
      | none => .err
    | _ => nameRed c nest s

def ternKeep (nest : Ex → RRes Ex) (c t f : Ex) : RRes Ex := (nest t).bind fun te => (nest f).bind fun fe => .ok (.tern c te fe)

mutual
/-- reducing a tree -/
def red (c : Ctx) (nest : Ex → RRes Ex) : Ex → RRes Ex
  | .name s => symRed c nest s
  | .const v => .ok (.const v)
  | .call f a => (redArgs c nest a).bind fun a' =>
    match c.fn f with
    | some g => callRed f a' g
    | none => .err
  | .arr a => (redArgs c nest a).bind fun a' => .ok (.arr a')
  | .un op e => (red c nest e).bind (unRed op)
  | .bin op a b => (red c nest a).bind fun a' => (red c nest b).bind (binRed op a')
  | .tern e t f => (red c nest e).bind fun e' =>
    match exVal e' with
    | some v => if numeric v then (if Base.toBool v then red c nest t else red c nest f) else ternKeep nest e' t f
    | none => ternKeep nest e' t f

def redArgs (c : Ctx) (nest : Ex → RRes Ex) : Args → RRes Args
  | .nil => .ok .nil
  | .cons e r => (red c nest e).bind fun e' => (redArgs c nest r).bind fun r' => .ok (.cons e' r')
end

/-- reducing a tree with `n` levels left -/
def redN (c : Ctx) : ℕ → Ex → RRes Ex
  | 0, _ => .err
  | n + 1, e => red c (redN c n) e

/-! ## the tokens of a tree, last first -/

theorem rev_name (s : List Char) : (rpn (.name s)).reverse = [.sym s] := by simp only [rpn]; rfl
theorem rev_const (v : Base.Val) : (rpn (.const v)).reverse = [.const v] := by simp only [rpn]; rfl
theorem rev_call (f : List Char) (a : Args) : (rpn (.call f a)).reverse = .sym f :: .parlist :: ((rpnArgs a).reverse ++ [.stop ['(']]) := by
  rw [rpn_call]; simp
theorem rev_arr (a : Args) : (rpn (.arr a)).reverse = .array :: ((rpnArgs a).reverse ++ [.stop ['\'', '{']]) := by
  rw [rpn_arr]; simp
theorem rev_un (op : List Char) (e : Ex) : (rpn (.un op e)).reverse = .un op :: (rpn e).reverse := by rw [rpn]; simp
theorem rev_bin (op : List Char) (a b : Ex) : (rpn (.bin op a b)).reverse = .bin op :: ((rpn b).reverse ++ (rpn a).reverse) := by
  rw [rpn]; simp
theorem rev_tern (c t f : Ex) : (rpn (.tern c t f)).reverse = .tern (rpn t) (rpn f) :: (rpn c).reverse := by rw [rpn]; simp

/-- the last token of a tree -/
def top : Ex → Tok
  | .name s => .sym s
  | .const v => .const v
  | .call f _ => .sym f
  | .arr _ => .array
  | .un op _ => .un op
  | .bin op _ _ => .bin op
  | .tern _ t f => .tern (rpn t) (rpn f)

theorem rev_top (e : Ex) : ∃ l, (rpn e).reverse = top e :: l := by
  cases e with
  | name s => exact ⟨_, rev_name s⟩
  | const v => exact ⟨_, rev_const v⟩
  | call f a => exact ⟨_, rev_call f a⟩
  | arr a => exact ⟨_, rev_arr a⟩
  | un op e => exact ⟨_, rev_un op e⟩
  | bin op a b => exact ⟨_, rev_bin op a b⟩
  | tern c t f => exact ⟨_, rev_tern c t f⟩

theorem value_rpn (e : Ex) : value (rpn e) = exVal e := by
  cases e with
  | name s => simp only [rpn]; rfl
  | const v => simp only [rpn]; rfl
  | call f a =>
    rw [rpn_call]; rfl
  | arr a => rw [rpn_arr]; rfl
  | un op e =>
    have h := rev_un op e
    cases hl : rpn (.un op e) with
    | nil => rfl
    | cons t l =>
      cases l with
      | nil => rw [hl] at h; simp at h; rw [h.1]; rfl
      | cons t2 l => cases t <;> rfl
  | bin op a b =>
    have h := rev_bin op a b
    cases hl : rpn (.bin op a b) with
    | nil => rfl
    | cons t l =>
      cases l with
      | nil => rw [hl] at h; simp at h; rw [h.1]; rfl
      | cons t2 l => cases t <;> rfl
  | tern c u f =>
    have h := rev_tern c u f
    cases hl : rpn (.tern c u f) with
    | nil => rfl
    | cons t l =>
      cases l with
      | nil => rw [hl] at h; simp at h; rw [h.1]; rfl
      | cons t2 l => cases t <;> rfl

/-! ## the operators -/

/-- a result as tokens on the stack `st` -/
def onStack (st : List Tok) (x : RRes Ex) : RRes (List Tok) := x.bind fun e => .ok ((rpn e).reverse ++ st)

theorem onStack_ok (st : List Tok) (e : Ex) : onStack st (.ok e) = .ok ((rpn e).reverse ++ st) := rfl

theorem binStack_other (op : List Char) (t : Tok) (L : List Tok) (h1 : ∀ s, t ≠ .sym s) (h2 : ∀ v, t ≠ .const v) (hL : L ≠ []) :
    binStack op (t :: L) = .ok (.bin op :: t :: L) := by
  cases L with
  | nil => exact absurd rfl hL
  | cons t2 L =>
    cases t with
    | sym s => exact absurd rfl (h1 s)
    | const v => exact absurd rfl (h2 v)
    | _ => rfl

theorem binStack_const (op : List Char) (v : Base.Val) (t : Tok) (L : List Tok) (h1 : ∀ s, t ≠ .bin s) (h2 : ∀ v, t ≠ .const v) :
    binStack op (.const v :: t :: L) = .ok (.bin op :: .const v :: t :: L) := by
  cases t with
  | bin s => exact absurd rfl (h1 s)
  | const v => exact absurd rfl (h2 v)
  | _ => rfl

theorem binStack_sym (op s : List Char) (t : Tok) (L : List Tok) (h2 : ∀ v, t ≠ .const v) :
    binStack op (.sym s :: t :: L) = .ok (.bin op :: .sym s :: t :: L) := by
  cases t with
  | const v => exact absurd rfl (h2 v)
  | _ => rfl

theorem binStack_bin (op op2 : List Char) (v : Base.Val) (t : Tok) (L : List Tok) (h2 : ∀ v, t ≠ .const v) :
    binStack op (.const v :: .bin op2 :: t :: L) = .ok (.bin op :: .const v :: .bin op2 :: t :: L) := by
  cases t with
  | const v => exact absurd rfl (h2 v)
  | _ => simp only [binStack]; split <;> rfl

theorem top_const (e : Ex) (h : exVal e = none) : ∀ v, top e ≠ .const v := by
  intro v hv
  cases e with
  | const w => cases h
  | _ => cases hv

theorem rev_ne_nil (e : Ex) (st : List Tok) : (rpn e).reverse ++ st ≠ [] := by
  obtain ⟨l, hl⟩ := rev_top e
  rw [hl]; simp

/-- the right operand is neither a name nor a constant -/
theorem binRed_other (op : List Char) (a b : Ex) (h1 : ∀ s, b ≠ .name s) (h2 : exVal b = none) : binRed op a b = .ok (.bin op a b) := by
  cases b with
  | name s => exact absurd rfl (h1 s)
  | const v => cases h2
  | _ => (cases a with
    | bin o p q => cases q <;> rfl
    | _ => rfl)

theorem binStack_rpn (op : List Char) (a b : Ex) (st : List Tok) :
    binStack op ((rpn b).reverse ++ ((rpn a).reverse ++ st)) = onStack st (binRed op a b) := by
  have fin : ∀ x y : Ex, onStack st (.ok (.bin op x y)) = .ok (.bin op :: ((rpn y).reverse ++ ((rpn x).reverse ++ st))) := by
    intro x y; simp [onStack_ok, rev_bin]
  cases b with
  | name s =>
    rw [rev_name]
    cases ha : exVal a with
    | none =>
      have e1 : binRed op a (.name s) = .ok (.bin op a (.name s)) := by
        cases a with
        | const v => cases ha
        | bin o p q => cases q <;> rfl
        | _ => rfl
      obtain ⟨l, hl⟩ := rev_top a
      rw [e1, fin, rev_name, hl]
      exact binStack_sym op s _ _ (top_const a ha)
    | some v =>
      have : a = .const v := by cases a <;> cases ha; rfl
      subst this
      rw [rev_const]
      simp only [binRed, List.cons_append, List.nil_append, binStack]
      split
      · rw [fin, rev_const, rev_name]; rfl
      · rw [fin, rev_const, rev_name]; rfl
  | const y =>
    rw [rev_const]
    cases a with
    | const x =>
      rw [rev_const]
      simp only [binRed, List.cons_append, List.nil_append, binStack]
      cases binData op x y with
      | ok o =>
        cases o with
        | none => show RRes.ok _ = onStack st (.ok _); rw [fin, rev_const, rev_const]; rfl
        | some v => show RRes.ok _ = onStack st (.ok _); rw [onStack_ok, rev_const]; rfl
      | err => rfl
      | ub => rfl
      | special => rfl
    | bin op2 p q =>
      rw [rev_bin]
      simp only [List.cons_append, List.nil_append, List.append_assoc]
      cases hq : exVal q with
      | none =>
        have e1 : binRed op (.bin op2 p q) (.const y) = .ok (.bin op (.bin op2 p q) (.const y)) := by
          cases q <;> first | rfl | cases hq
        obtain ⟨l, hl⟩ := rev_top q
        rw [e1, fin, rev_const, rev_bin, hl]
        simp only [List.cons_append, List.nil_append, List.append_assoc]
        exact binStack_bin op op2 y _ _ (top_const q hq)
      | some z =>
        have : q = .const z := by cases q <;> cases hq; rfl
        subst this
        rw [rev_const]
        simp only [binRed, List.cons_append, List.nil_append, binStack]
        split
        · cases binData op z y with
          | ok o =>
            cases o with
            | none => show RRes.ok _ = onStack st (.ok _); rw [fin, rev_const, rev_bin, rev_const]; simp
            | some v => show RRes.ok _ = onStack st (.ok _); rw [onStack_ok, rev_bin, rev_const]; simp
          | err => rfl
          | ub => rfl
          | special => rfl
        · rw [fin, rev_const, rev_bin, rev_const]; simp
    | name s =>
      have e1 : binRed op (.name s) (.const y) = .ok (.bin op (.name s) (.const y)) := rfl
      rw [e1, fin, rev_const, rev_name]; rfl
    | call f r =>
      have e1 : binRed op (.call f r) (.const y) = .ok (.bin op (.call f r) (.const y)) := rfl
      rw [e1, fin, rev_const, rev_call]; rfl
    | arr r =>
      have e1 : binRed op (.arr r) (.const y) = .ok (.bin op (.arr r) (.const y)) := rfl
      rw [e1, fin, rev_const, rev_arr]; rfl
    | un o e =>
      have e1 : binRed op (.un o e) (.const y) = .ok (.bin op (.un o e) (.const y)) := rfl
      rw [e1, fin, rev_const, rev_un]; rfl
    | tern x y2 z =>
      have e1 : binRed op (.tern x y2 z) (.const y) = .ok (.bin op (.tern x y2 z) (.const y)) := rfl
      rw [e1, fin, rev_const, rev_tern]; rfl
  | call f r =>
    rw [binRed_other op a _ (by intro s h; cases h) rfl, fin, rev_call]; rfl
  | arr r =>
    rw [binRed_other op a _ (by intro s h; cases h) rfl, fin, rev_arr]
    exact binStack_other op _ _ (by intro s h; cases h) (by intro s h; cases h) (by simp)
  | un o e =>
    rw [binRed_other op a _ (by intro s h; cases h) rfl, fin, rev_un]
    exact binStack_other op _ _ (by intro s h; cases h) (by intro s h; cases h) (rev_ne_nil e _)
  | bin o x y =>
    rw [binRed_other op a _ (by intro s h; cases h) rfl, fin, rev_bin]
    refine binStack_other op _ _ (by intro s h; cases h) (by intro s h; cases h) ?_
    show (rpn y).reverse ++ (rpn x).reverse ++ ((rpn a).reverse ++ st) ≠ []
    rw [List.append_assoc]; exact rev_ne_nil y _
  | tern x y z =>
    rw [binRed_other op a _ (by intro s h; cases h) rfl, fin, rev_tern]
    exact binStack_other op _ _ (by intro s h; cases h) (by intro s h; cases h) (rev_ne_nil x _)

theorem unStack_rpn (op : List Char) (e : Ex) (st : List Tok) : unStack op ((rpn e).reverse ++ st) = onStack st (unRed op e) := by
  cases he : exVal e with
  | none =>
    have e1 : unRed op e = .ok (.un [] e) := by cases e <;> first | rfl | cases he
    obtain ⟨l, hl⟩ := rev_top e
    rw [e1, onStack_ok, rev_un, hl]
    have := top_const e he
    cases ht : top e with
    | const v => exact absurd ht (this v)
    | _ => rfl
  | some a =>
    have : e = .const a := by cases e <;> cases he; rfl
    subst this
    rw [rev_const]
    simp only [unRed, List.cons_append, List.nil_append, unStack]
    cases unData op a with
    | ok o =>
      cases o with
      | none => show RRes.ok _ = onStack st (.ok _); rw [onStack_ok, rev_un, rev_const]; rfl
      | some v => show RRes.ok _ = onStack st (.ok _); rw [onStack_ok, rev_const]; rfl
    | err => rfl
    | ub => rfl
    | special => rfl

/-! ## calls -/

theorem rev_args_cons (e : Ex) (r : Args) : (rpnArgs (.cons e r)).reverse = (rpnArgs r).reverse ++ (rpn e).reverse := by
  rw [rpnArgs]; simp

theorem top_stop (e : Ex) (s : List Char) : top e ≠ .stop s := by cases e <;> intro h <;> cases h

theorem numArgs_rpn : ∀ (a : Args) (acc : List Base.Val) (T : List Tok), numArgs acc ((rpnArgs a).reverse ++ T) =
    match allNum a with
    | some vs => numArgs (vs ++ acc) T
    | none => .ok none := by
  intro a
  induction a using Args.rec (motive_1 := fun _ => True) with
  | nil => intro acc T; simp [rpnArgs, allNum]
  | cons e r _ ih =>
    intro acc T
    rw [rev_args_cons, List.append_assoc, ih]
    cases he : exVal e with
    | none =>
      simp only [allNum, he]
      cases allNum r with
      | none => rfl
      | some vs =>
        simp only
        obtain ⟨l, hl⟩ := rev_top e
        rw [hl]
        have h1 := top_const e he
        have h2 := top_stop e
        cases ht : top e with
        | const v => exact absurd ht (h1 v)
        | stop s => exact absurd ht (h2 s)
        | _ => rfl
    | some v =>
      have : e = .const v := by cases e <;> cases he; rfl
      subst this
      simp only [allNum, exVal]
      rw [rev_const]
      cases allNum r with
      | none => by_cases hv : numeric v = true <;> simp [hv]
      | some vs => by_cases hv : numeric v = true <;> simp [hv, numArgs]
  | _ => trivial

theorem unsnoc_none (a : Args) (h : unsnoc a = none) : a = .nil := by
  cases a with
  | nil => rfl
  | cons e r =>
    simp only [unsnoc] at h
    split at h <;> cases h

theorem unsnoc_rev : ∀ (a b : Args) (l : Ex), unsnoc a = some (b, l) → (rpnArgs a).reverse = (rpn l).reverse ++ (rpnArgs b).reverse := by
  intro a
  induction a using Args.rec (motive_1 := fun _ => True) with
  | nil => intro b l h; cases h
  | cons e r _ ih =>
    intro b l h
    rw [rev_args_cons]
    simp only [unsnoc] at h
    split at h
    · rename_i hr
      cases h
      rw [unsnoc_none r hr]
      simp [rpnArgs]
    · rename_i b' l' hr
      cases h
      rw [ih _ _ hr, rev_args_cons]
      simp
  | _ => trivial

theorem callStack_rpn (name : List Char) (a : Args) (f : Fn) (st : List Tok) :
    callStack name f ((rpnArgs a).reverse ++ .stop ['('] :: st) = onStack st (callRed name a f) := by
  have fin : ∀ a' : Args, onStack st (.ok (.call name a')) = .ok (.sym name :: .parlist :: ((rpnArgs a').reverse ++ .stop ['('] :: st)) := by
    intro a'; simp [onStack_ok, rev_call]
  cases f with
  | usual ev =>
    simp only [callStack, callRed]
    rw [numArgs_rpn]
    cases h : allNum a with
    | none => show RRes.ok _ = onStack st (.ok _); rw [fin]
    | some vs =>
      simp only [numArgs, List.append_nil]
      cases hv : ev vs with
      | none => show (match ev vs with | none => _ | some q => _) = _; rw [hv]; simp only; rw [fin]
      | some q => show (match ev vs with | none => _ | some q => _) = _; rw [hv]; simp only; rw [onStack_ok, rev_const]; rfl
  | one drops g =>
    simp only [callRed]
    cases h : unsnoc a with
    | none =>
      rw [unsnoc_none a h]
      simp only
      rw [fin]
      simp [rpnArgs, callStack]
    | some p =>
      obtain ⟨b, l⟩ := p
      simp only
      have hr := unsnoc_rev a b l h
      cases hl : exVal l with
      | none =>
        simp only
        rw [fin, hr]
        obtain ⟨k, hk⟩ := rev_top l
        rw [hk]
        have h1 := top_const l hl
        cases ht : top l with
        | const v => exact absurd ht (h1 v)
        | _ => rfl
      | some v =>
        have : l = .const v := by cases l <;> cases hl; rfl
        subst this
        rw [hr, rev_const]
        simp only [callStack, List.cons_append, List.nil_append]
        split
        · cases hg : g v with
          | none => rfl
          | some r =>
            simp only
            cases b with
            | nil =>
              simp only [rpnArgs, List.reverse_nil, List.nil_append]
              rw [onStack_ok, rev_const]; rfl
            | cons e b =>
              simp only
              rw [fin, hr, rev_const]
              cases hb : unsnoc (.cons e b) with
              | none => exact absurd (unsnoc_none _ hb) (by intro h; cases h)
              | some p =>
                obtain ⟨b', l'⟩ := p
                rw [unsnoc_rev _ _ _ hb]
                obtain ⟨k, hk⟩ := rev_top l'
                rw [hk]
                have h2 := top_stop l'
                cases ht : top l' with
                | stop s => exact absurd ht (h2 s)
                | _ => rfl
        · split
          · rw [fin]
          · rw [fin, hr, rev_const]; rfl

/-! ## trees -/

theorem stackList_append (c : Ctx) (nest : List Tok → RRes (List Tok)) (l m st : List Tok) :
    stackList c nest (l ++ m) st = (stackList c nest l st).bind (stackList c nest m) := by
  induction l generalizing st with
  | nil => rw [List.nil_append, stackList]; rfl
  | cons t l ih =>
    rw [List.cons_append, stackList, stackList]
    cases stackOp c nest t st with
    | ok a => exact ih a
    | err => rfl
    | ub => rfl
    | special => rfl

theorem stackList_one (c : Ctx) (nest : List Tok → RRes (List Tok)) (t : Tok) (st : List Tok) :
    stackList c nest [t] st = stackOp c nest t st := by
  rw [stackList]
  cases stackOp c nest t st with
  | ok a => show stackList c nest [] a = _; rw [stackList]
  | err => rfl
  | ub => rfl
  | special => rfl

/-- the top of the stack is not a `PARLIST` -/
def topOk : List Tok → Prop
  | .parlist :: _ => False
  | _ => True

theorem topOk_rev (e : Ex) (st : List Tok) : topOk ((rpn e).reverse ++ st) := by
  obtain ⟨l, hl⟩ := rev_top e
  rw [hl]
  cases e <;> trivial

theorem topOk_args (a : Args) (s : List Char) (st : List Tok) : topOk ((rpnArgs a).reverse ++ .stop s :: st) := by
  cases h : unsnoc a with
  | none => rw [unsnoc_none a h]; simp [rpnArgs, topOk]
  | some p =>
    obtain ⟨b, l⟩ := p
    rw [unsnoc_rev a b l h, List.append_assoc]
    exact topOk_rev l _

/-- the two ways to reduce one level deeper agree -/
def Agree (nest : List Tok → RRes (List Tok)) (nestE : Ex → RRes Ex) : Prop :=
  ∀ e, nest (rpn e) = (nestE e).bind fun e' => .ok (rpn e')

theorem symStack_name (c : Ctx) (nest : List Tok → RRes (List Tok)) (s : List Char) (st : List Tok) (h : topOk st) :
    symStack c nest s st = if isNumber s then (numConst c s).bind fun v => .ok (.const v :: st)
      else
        match s with
        | '"' :: r =>
          match quoted r with
          | some (d, _) => .ok (.const (.vstr d) :: st)
          | none => .err
        | _ => nameStack c nest s st := by
  cases st with
  | nil => rfl
  | cons t st => cases t <;> first | rfl | exact h.elim

theorem nameStack_rpn (c : Ctx) (nest : List Tok → RRes (List Tok)) (nestE : Ex → RRes Ex) (hn : Agree nest nestE) (s : List Char)
    (st : List Tok) : nameStack c nest s st = onStack st (nameRed c nestE s) := by
  simp only [nameStack, nameRed]
  cases c.par s with
  | none => show RRes.ok _ = onStack st (.ok _); rw [onStack_ok, rev_name]; rfl
  | some p =>
    simp only
    cases hp : parse c.ci p.text with
    | ok r =>
      obtain ⟨pp, r⟩ := r
      simp only
      obtain ⟨e0, he0⟩ := parse_shape c.ci p.text pp r hp
      subst he0
      rw [dec_rpn e0 [] trivial, hn e0]
      simp only
      cases nestE e0 with
      | ok e =>
        simp only [RRes.bind]
        rw [value_rpn]
        cases he : exVal e with
        | none => rfl
        | some v =>
          simp only
          cases ha : ofOut (assign p.ty v) with
          | ok o =>
            cases o with
            | none => rfl
            | some n => simp only; rw [onStack_ok, rev_const]; rfl
          | err => rfl
          | ub => rfl
          | special => rfl
      | err => rfl
      | ub => rfl
      | special => rfl
    | err => rfl
    | fuel => rfl

theorem symStack_rpn (c : Ctx) (nest : List Tok → RRes (List Tok)) (nestE : Ex → RRes Ex) (hn : Agree nest nestE) (s : List Char)
    (st : List Tok) (h : topOk st) : symStack c nest s st = onStack st (symRed c nestE s) := by
  rw [symStack_name c nest s st h]
  simp only [symRed]
  split
  · cases numConst c s with
    | ok v => show RRes.ok _ = onStack st (.ok _); rw [onStack_ok, rev_const]; rfl
    | err => rfl
    | ub => rfl
    | special => rfl
  · split
    · split
      · rw [onStack_ok, rev_const]; rfl
      · rfl
    · exact nameStack_rpn c nest nestE hn s st

theorem onStack_bind (st : List Tok) (x : RRes Ex) (f : Ex → RRes Ex) (g : List Tok → RRes (List Tok))
    (h : ∀ e, g ((rpn e).reverse ++ st) = onStack st (f e)) : (onStack st x).bind g = onStack st (x.bind f) := by
  cases x with
  | ok e => exact h e
  | err => rfl
  | ub => rfl
  | special => rfl

/-- arguments on the stack -/
def onStackArgs (st : List Tok) (x : RRes Args) : RRes (List Tok) := x.bind fun a => .ok ((rpnArgs a).reverse ++ st)

theorem sl_nil (c : Ctx) (nest : List Tok → RRes (List Tok)) (st : List Tok) : stackList c nest [] st = .ok st := by rw [stackList]
theorem sl_cons (c : Ctx) (nest : List Tok → RRes (List Tok)) (t : Tok) (l st : List Tok) :
    stackList c nest (t :: l) st = (stackOp c nest t st).bind (stackList c nest l) := by rw [stackList]
theorem so_sym (c : Ctx) (nest : List Tok → RRes (List Tok)) (s : List Char) (st : List Tok) : stackOp c nest (.sym s) st = symStack c nest s st := by
  rw [stackOp]
theorem so_const (c : Ctx) (nest : List Tok → RRes (List Tok)) (v : Base.Val) (st : List Tok) : stackOp c nest (.const v) st = .ok (.const v :: st) := by
  rw [stackOp]
theorem so_stop (c : Ctx) (nest : List Tok → RRes (List Tok)) (s : List Char) (st : List Tok) : stackOp c nest (.stop s) st = .ok (.stop s :: st) := by
  rw [stackOp]
theorem so_par (c : Ctx) (nest : List Tok → RRes (List Tok)) (st : List Tok) : stackOp c nest .parlist st = .ok (.parlist :: st) := by rw [stackOp]
theorem so_arr (c : Ctx) (nest : List Tok → RRes (List Tok)) (st : List Tok) : stackOp c nest .array st = .ok (.array :: st) := by rw [stackOp]
theorem so_un (c : Ctx) (nest : List Tok → RRes (List Tok)) (op : List Char) (st : List Tok) : stackOp c nest (.un op) st = unStack op st := by
  rw [stackOp]
theorem so_bin (c : Ctx) (nest : List Tok → RRes (List Tok)) (op : List Char) (st : List Tok) : stackOp c nest (.bin op) st = binStack op st := by
  rw [stackOp]
theorem so_tern_num (c : Ctx) (nest : List Tok → RRes (List Tok)) (t f : List Tok) (v : Base.Val) (st : List Tok) (hv : numeric v = true) :
    stackOp c nest (.tern t f) (.const v :: st) = if Base.toBool v then stackList c nest t st else stackList c nest f st := by
  rw [stackOp]; simp only [hv, if_true]
theorem so_tern_keep (c : Ctx) (nest : List Tok → RRes (List Tok)) (t f : List Tok) (t1 : Tok) (st : List Tok)
    (h : ∀ v, t1 = .const v → numeric v = false) :
    stackOp c nest (.tern t f) (t1 :: st) = (nest t).bind fun te => (nest f).bind fun fe => .ok (.tern te fe :: t1 :: st) := by
  cases t1 with
  | const v => rw [stackOp]; simp only [h v rfl, Bool.false_eq_true, if_false]
  | _ => rw [stackOp]; intro v hv; cases hv

theorem ternKeep_rpn (nest : List Tok → RRes (List Tok)) (nestE : Ex → RRes Ex) (hn : Agree nest nestE) (e t f : Ex) (st : List Tok) :
    ((nest (rpn t)).bind fun te => (nest (rpn f)).bind fun fe => .ok (.tern te fe :: ((rpn e).reverse ++ st)))
      = onStack st (ternKeep nestE e t f) := by
  rw [hn t, hn f]
  simp only [ternKeep]
  cases nestE t with
  | ok te =>
    cases nestE f with
    | ok fe => show RRes.ok _ = onStack st (.ok _); rw [onStack_ok, rev_tern]; rfl
    | err => rfl
    | ub => rfl
    | special => rfl
  | err => rfl
  | ub => rfl
  | special => rfl

theorem red_name (c : Ctx) (n : Ex → RRes Ex) (s : List Char) : red c n (.name s) = symRed c n s := by rw [red]
theorem red_const (c : Ctx) (n : Ex → RRes Ex) (v : Base.Val) : red c n (.const v) = .ok (.const v) := by rw [red]
theorem red_call (c : Ctx) (n : Ex → RRes Ex) (f : List Char) (a : Args) : red c n (.call f a) = (redArgs c n a).bind fun a' =>
    match c.fn f with
    | some g => callRed f a' g
    | none => .err := by rw [red]
theorem red_arr (c : Ctx) (n : Ex → RRes Ex) (a : Args) : red c n (.arr a) = (redArgs c n a).bind fun a' => .ok (.arr a') := by rw [red]
theorem red_un (c : Ctx) (n : Ex → RRes Ex) (op : List Char) (e : Ex) : red c n (.un op e) = (red c n e).bind (unRed op) := by rw [red]
theorem red_bin (c : Ctx) (n : Ex → RRes Ex) (op : List Char) (a b : Ex) :
    red c n (.bin op a b) = (red c n a).bind fun a' => (red c n b).bind (binRed op a') := by rw [red]
theorem red_tern (c : Ctx) (n : Ex → RRes Ex) (e t f : Ex) : red c n (.tern e t f) = (red c n e).bind fun e' =>
    match exVal e' with
    | some v => if numeric v then (if Base.toBool v then red c n t else red c n f) else ternKeep n e' t f
    | none => ternKeep n e' t f := by rw [red]
theorem redArgs_nil (c : Ctx) (n : Ex → RRes Ex) : redArgs c n .nil = .ok .nil := by rw [redArgs]
theorem redArgs_cons (c : Ctx) (n : Ex → RRes Ex) (e : Ex) (r : Args) :
    redArgs c n (.cons e r) = (red c n e).bind fun e' => (redArgs c n r).bind fun r' => .ok (.cons e' r') := by rw [redArgs]

mutual
theorem stackList_rpn (c : Ctx) (nest : List Tok → RRes (List Tok)) (nestE : Ex → RRes Ex) (hn : Agree nest nestE) :
    ∀ (e : Ex) (st : List Tok), topOk st → stackList c nest (rpn e) st = onStack st (red c nestE e)
  | .name s, st, h => by
    rw [show rpn (.name s) = [.sym s] by rw [rpn], stackList_one, so_sym, red_name]
    exact symStack_rpn c nest nestE hn s st h
  | .const v, st, h => by
    rw [show rpn (.const v) = [.const v] by rw [rpn], stackList_one, so_const, red_const, onStack_ok, rev_const]; rfl
  | .call f a, st, h => by
    rw [rpn_call, sl_cons, so_stop, red_call]
    show stackList c nest (rpnArgs a ++ [.parlist, .sym f]) (.stop ['('] :: st) = _
    rw [stackList_append, stackList_args c nest nestE hn a (.stop ['('] :: st) trivial]
    cases redArgs c nestE a with
    | ok a' =>
      show stackList c nest [.parlist, .sym f] ((rpnArgs a').reverse ++ .stop ['('] :: st) = _
      rw [sl_cons, so_par]
      show stackList c nest [.sym f] (.parlist :: ((rpnArgs a').reverse ++ .stop ['('] :: st)) = _
      rw [stackList_one, so_sym]
      simp only [symStack, RRes.bind]
      cases c.fn f with
      | none => rfl
      | some g => exact callStack_rpn f a' g st
    | err => rfl
    | ub => rfl
    | special => rfl
  | .arr a, st, h => by
    rw [rpn_arr, sl_cons, so_stop, red_arr]
    show stackList c nest (rpnArgs a ++ [.array]) (.stop ['\'', '{'] :: st) = _
    rw [stackList_append, stackList_args c nest nestE hn a (.stop ['\'', '{'] :: st) trivial]
    cases redArgs c nestE a with
    | ok a' =>
      show stackList c nest [.array] ((rpnArgs a').reverse ++ .stop ['\'', '{'] :: st) = onStack st (.ok _)
      rw [stackList_one, so_arr, onStack_ok, rev_arr]
      simp
    | err => rfl
    | ub => rfl
    | special => rfl
  | .un op e, st, h => by
    rw [show rpn (.un op e) = rpn e ++ [.un op] by rw [rpn], stackList_append, stackList_rpn c nest nestE hn e st h, red_un]
    refine onStack_bind st _ _ _ ?_
    intro e'
    rw [stackList_one, so_un]
    exact unStack_rpn op e' st
  | .bin op a b, st, h => by
    rw [show rpn (.bin op a b) = rpn a ++ rpn b ++ [.bin op] by rw [rpn], stackList_append, stackList_append,
      stackList_rpn c nest nestE hn a st h, red_bin]
    cases red c nestE a with
    | ok a' =>
      show (stackList c nest (rpn b) ((rpn a').reverse ++ st)).bind _ = onStack st ((red c nestE b).bind (binRed op a'))
      rw [stackList_rpn c nest nestE hn b _ (topOk_rev a' st)]
      cases red c nestE b with
      | ok b' =>
        show stackList c nest [.bin op] ((rpn b').reverse ++ ((rpn a').reverse ++ st)) = onStack st (binRed op a' b')
        rw [stackList_one, so_bin]
        exact binStack_rpn op a' b' st
      | err => rfl
      | ub => rfl
      | special => rfl
    | err => rfl
    | ub => rfl
    | special => rfl
  | .tern e t f, st, h => by
    rw [show rpn (.tern e t f) = rpn e ++ [.tern (rpn t) (rpn f)] by rw [rpn], stackList_append, stackList_rpn c nest nestE hn e st h,
      red_tern]
    refine onStack_bind st _ _ _ ?_
    intro e'
    rw [stackList_one]
    cases he : exVal e' with
    | some v =>
      have : e' = .const v := by cases e' <;> cases he; rfl
      subst this
      rw [rev_const]
      show stackOp c nest (.tern (rpn t) (rpn f)) (.const v :: st) = _
      by_cases hv : numeric v = true
      · rw [so_tern_num c nest _ _ v st hv]
        simp only [hv, if_true]
        cases Base.toBool v with
        | true => exact stackList_rpn c nest nestE hn t st h
        | false => exact stackList_rpn c nest nestE hn f st h
      · simp only [hv, if_false]
        rw [so_tern_keep c nest _ _ _ _ (by intro w hw; cases hw; simpa using hv)]
        have := ternKeep_rpn nest nestE hn (.const v) t f st
        rw [rev_const] at this
        exact this
    | none =>
      simp only
      have key := ternKeep_rpn nest nestE hn e' t f st
      obtain ⟨l, hl⟩ := rev_top e'
      rw [hl] at key ⊢
      rw [← key]
      exact so_tern_keep c nest _ _ _ _ (fun v hv => absurd hv (top_const e' he v))

theorem stackList_args (c : Ctx) (nest : List Tok → RRes (List Tok)) (nestE : Ex → RRes Ex) (hn : Agree nest nestE) :
    ∀ (a : Args) (st : List Tok), topOk st → stackList c nest (rpnArgs a) st = onStackArgs st (redArgs c nestE a)
  | .nil, st, h => by
    rw [show rpnArgs .nil = [] by rw [rpnArgs], sl_nil, redArgs_nil]
    simp [onStackArgs, RRes.bind, rpnArgs]
  | .cons e r, st, h => by
    rw [show rpnArgs (.cons e r) = rpn e ++ rpnArgs r by rw [rpnArgs], stackList_append, stackList_rpn c nest nestE hn e st h, redArgs_cons]
    cases red c nestE e with
    | ok e' =>
      show stackList c nest (rpnArgs r) ((rpn e').reverse ++ st) = _
      rw [stackList_args c nest nestE hn r _ (topOk_rev e' st)]
      cases redArgs c nestE r with
      | ok r' =>
        show RRes.ok _ = RRes.ok _
        rw [rev_args_cons]; simp
      | err => rfl
      | ub => rfl
      | special => rfl
    | err => rfl
    | ub => rfl
    | special => rfl
end

theorem reduce_rpn (c : Ctx) : ∀ (n : ℕ) (e : Ex), reduce c n (rpn e) = (redN c n e).bind fun e' => .ok (rpn e')
  | 0, e => rfl
  | n + 1, e => by
    rw [reduce, stackList_rpn c (reduce c n) (redN c n) (reduce_rpn c n) e [] trivial, redN]
    cases red c (redN c n) e with
    | ok e' => show RRes.ok _ = RRes.ok _; simp
    | err => rfl
    | ub => rfl
    | special => rfl

end Gnucap.Expr
