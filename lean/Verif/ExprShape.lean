import Verif.ExprProps

/-!
# What the reader of expressions delivers is the reverse Polish form of a tree, for every text; a text has only one tree
-/
namespace Gnucap.Expr
open Gnucap.Scan Gnucap.Num

/-! ## every text that is accepted gives a tree -/

/-- on success, the tokens satisfy `P` -/
def Gives (P : List Tok → Prop) (x : PRes St) : Prop := ∀ st, x = .ok st → P st.1

theorem Gives.bind {P Q : List Tok → Prop} {x : PRes St} {f : St → PRes St} (h : Gives P x) (hf : ∀ st, P st.1 → Gives Q (f st)) :
    Gives Q (x.bind f) := by
  intro st hst
  cases x with
  | ok a => exact hf a (h a rfl) st hst
  | err => cases hst
  | fuel => cases hst

theorem Gives.ok {P : List Tok → Prop} (st : St) (h : P st.1) : Gives P (.ok st) := by
  intro st' e; cases e; exact h

theorem Gives.err {P : List Tok → Prop} : Gives P .err := fun _ e => nomatch e
theorem Gives.fuel {P : List Tok → Prop} : Gives P .fuel := fun _ e => nomatch e

/-- one tree more than `o` -/
def One (o l : List Tok) : Prop := ∃ e, l = o ++ rpn e

def snoc : Args → Args → Args
  | .nil, b => b
  | .cons e r, b => .cons e (snoc r b)

theorem rpnArgs_snoc (a b : Args) : rpnArgs (snoc a b) = rpnArgs a ++ rpnArgs b := by
  induction a using Args.rec (motive_1 := fun _ => True) with
  | nil => rfl
  | cons e r _ ih => simp only [snoc, rpnArgs, ih, List.append_assoc]
  | _ => trivial

structure Shape (ci : Bool) (n : ℕ) : Prop where
  arglisttail : ∀ o s, Gives (fun l => ∃ a, l = o ++ rpnArgs a) (arglisttail ci n (o, s))
  arglist : ∀ o s, Gives (fun l => l = o ∨ ∃ a, l = o ++ (.stop ['('] :: rpnArgs a ++ [.parlist])) (arglist ci n (o, s))
  arrayTail : ∀ o s, Gives (One o) (arrayTail ci n (o, s))
  leaf : ∀ o s, Gives (One o) (leaf ci n (o, s))
  factor : ∀ o s, Gives (One o) (factor ci n (o, s))
  operand : ∀ o s, Gives (One o) (operand ci n (o, s))
  ternary : ∀ o e s, Gives (One o) (ternary ci n (o ++ rpn e, s))
  termtail : ∀ o e s, Gives (One o) (termtail ci n (o ++ rpn e, s))
  term : ∀ o s, Gives (One o) (term ci n (o, s))
  addexptail : ∀ o e s, Gives (One o) (addexptail ci n (o ++ rpn e, s))
  addexp : ∀ o s, Gives (One o) (addexp ci n (o, s))
  logicaltail : ∀ o e s, Gives (One o) (logicaltail ci n (o ++ rpn e, s))
  logical : ∀ o s, Gives (One o) (logical ci n (o, s))
  andtail : ∀ o e s, Gives (One o) (andtail ci n (o ++ rpn e, s))
  andarg : ∀ o s, Gives (One o) (andarg ci n (o, s))
  exptail : ∀ o e s, Gives (One o) (exptail ci n (o ++ rpn e, s))
  expression : ∀ o s, Gives (One o) (expression ci n (o, s))

theorem tail_case {o : List Tok} {e : Ex} {name : List Char} {x : PRes St} {g : St → PRes St}
    (hx : Gives (One (o ++ rpn e)) x) (hg : ∀ e s, Gives (One o) (g (o ++ rpn e, s))) :
    Gives (One o) (x.bind fun st => g (st.1 ++ [.bin name], st.2)) := by
  refine hx.bind ?_
  rintro ⟨l, s⟩ ⟨e2, h⟩
  simp only at h ⊢
  rw [h]
  have := hg (.bin name e e2) s
  simp only [rpn] at this
  simpa using this

theorem seq_case {o : List Tok} {x : PRes St} {g : St → PRes St} (hx : Gives (One o) x) (hg : ∀ e s, Gives (One o) (g (o ++ rpn e, s))) :
    Gives (One o) (x.bind g) := by
  refine hx.bind ?_
  rintro ⟨l, s⟩ ⟨e, h⟩
  simp only at h
  rw [h]
  exact hg e s

/-- an expression and more arguments -/
theorem args_case {o : List Tok} {x : PRes St} {g : St → PRes St} (hx : Gives (One o) x)
    (hg : ∀ o s, Gives (fun l => ∃ a, l = o ++ rpnArgs a) (g (o, s))) : Gives (fun l => ∃ a, l = o ++ rpnArgs a) (x.bind g) := by
  refine hx.bind ?_
  rintro ⟨l, s⟩ ⟨e, h⟩ st hst
  obtain ⟨a, ha⟩ := hg l s st hst
  refine ⟨.cons e a, ?_⟩
  simp only at h
  rw [ha, h]
  simp [rpnArgs]

theorem shape (ci : Bool) (n : ℕ) : Shape ci n := by
  induction n with
  | zero =>
    constructor
    · intro o s; simp only [arglisttail]; exact Gives.fuel
    · intro o s; simp only [arglist]; exact Gives.fuel
    · intro o s; simp only [arrayTail]; exact Gives.fuel
    · intro o s; simp only [leaf]; exact Gives.fuel
    · intro o s; simp only [factor]; exact Gives.fuel
    · intro o s; simp only [operand]; exact Gives.fuel
    · intro o e s; simp only [ternary]; exact Gives.fuel
    · intro o e s; simp only [termtail]; exact Gives.fuel
    · intro o s; simp only [term]; exact Gives.fuel
    · intro o e s; simp only [addexptail]; exact Gives.fuel
    · intro o s; simp only [addexp]; exact Gives.fuel
    · intro o e s; simp only [logicaltail]; exact Gives.fuel
    · intro o s; simp only [logical]; exact Gives.fuel
    · intro o e s; simp only [andtail]; exact Gives.fuel
    · intro o s; simp only [andarg]; exact Gives.fuel
    · intro o e s; simp only [exptail]; exact Gives.fuel
    · intro o s; simp only [expression]; exact Gives.fuel
  | succ n H =>
    constructor
    · intro o s
      simp only [arglisttail]
      split
      · exact args_case (H.expression _ _) H.arglisttail
      · exact Gives.ok _ ⟨.nil, by simp [rpnArgs]⟩
    · intro o s
      simp only [arglist]
      split
      · split
        · exact Gives.ok _ (Or.inr ⟨.nil, by simp [rpnArgs]⟩)
        · refine (args_case (H.expression _ _) H.arglisttail).bind ?_
          rintro ⟨l, s'⟩ ⟨a, ha⟩
          simp only at ha ⊢
          split
          · refine Gives.ok _ (Or.inr ⟨a, ?_⟩)
            simp only [ha]; simp
          · exact Gives.err
      · exact Gives.ok _ (Or.inl rfl)
    · intro o s
      simp only [arrayTail]
      split
      · exact Gives.ok _ ⟨.arr .nil, by simp [rpn, rpnArgs]⟩
      · refine (args_case (H.expression _ _) H.arglisttail).bind ?_
        rintro ⟨l, s'⟩ ⟨a, ha⟩
        simp only at ha ⊢
        split
        · refine Gives.ok _ ⟨.arr a, ?_⟩
          simp only [ha, rpn]; simp
        · exact Gives.err
    · intro o s
      simp only [leaf]
      split
      · split
        · rename_i d r _
          exact Gives.ok _ ⟨.const (.vstr d), by simp [rpn]⟩
        · exact Gives.err
      · split
        · exact Gives.ok _ ⟨.name _, by simp [rpn]; rfl⟩
        · split
          · exact H.arrayTail _ _
          · split
            · refine (H.arglist _ _).bind ?_
              rintro ⟨l, s'⟩ (h | ⟨a, h⟩)
              · simp only at h
                subst h
                exact Gives.ok _ ⟨.name _, by simp [rpn]; rfl⟩
              · simp only at h
                subst h
                exact Gives.ok _ ⟨.call _ a, by simp [rpn]; rfl⟩
            · exact Gives.err
    · intro o s
      simp only [factor]
      split
      · rename_i name r _
        refine (H.operand _ _).bind ?_
        rintro ⟨l, s'⟩ ⟨e, h⟩
        simp only at h
        subst h
        exact Gives.ok _ ⟨.un name e, by simp [rpn]⟩
      · exact H.operand _ _
    · intro o s
      simp only [operand]
      split
      · refine (H.expression _ _).bind ?_
        rintro ⟨l, s'⟩ h
        simp only
        split
        · exact Gives.ok _ h
        · exact Gives.err
      · exact H.leaf _ _
    · intro o e s
      simp only [ternary]
      refine (H.expression _ _).bind ?_
      rintro ⟨l, s'⟩ ⟨t, h⟩
      simp only at h ⊢
      split
      · refine (H.expression _ _).bind ?_
        rintro ⟨l2, s2⟩ ⟨f, h2⟩
        simp only at h2 ⊢
        refine Gives.ok _ ⟨.tern e t f, ?_⟩
        rw [h, h2]
        simp [rpn]
      · exact Gives.err
    · intro o e s
      simp only [termtail]
      split
      · exact tail_case (H.factor _ _) (H.termtail o)
      · exact Gives.ok _ ⟨e, rfl⟩
    · intro o s
      simp only [term]
      exact seq_case (H.factor _ _) (H.termtail o)
    · intro o e s
      simp only [addexptail]
      split
      · exact tail_case (H.term _ _) (H.addexptail o)
      · exact Gives.ok _ ⟨e, rfl⟩
    · intro o s
      simp only [addexp]
      exact seq_case (H.term _ _) (H.addexptail o)
    · intro o e s
      simp only [logicaltail]
      split
      · exact tail_case (H.addexp _ _) (H.logicaltail o)
      · exact Gives.ok _ ⟨e, rfl⟩
    · intro o s
      simp only [logical]
      exact seq_case (H.addexp _ _) (H.logicaltail o)
    · intro o e s
      simp only [andtail]
      split
      · exact tail_case (H.logical _ _) (H.andtail o)
      · exact Gives.ok _ ⟨e, rfl⟩
    · intro o s
      simp only [andarg]
      exact seq_case (H.logical _ _) (H.andtail o)
    · intro o e s
      simp only [exptail]
      split
      · exact tail_case (H.andarg _ _) (H.exptail o)
      · split
        · exact H.ternary _ _ _
        · exact Gives.ok _ ⟨e, rfl⟩
    · intro o s
      simp only [expression]
      exact seq_case (H.andarg _ _) (H.exptail o)

/-- C38: whatever text is accepted, the tokens are the reverse Polish form of a tree -/
theorem parse_shape (ci : Bool) (s : List Char) (l : List Tok) (r : List Char) (h : parse ci s = .ok (l, r)) : ∃ e, l = rpn e := by
  obtain ⟨e, he⟩ := (shape ci _).expression [] s (l, r) h
  exact ⟨e, by simpa using he⟩

/-! ## a token list has only one tree -/

inductive Item where
  | ex (e : Ex)
  | stop
  | par (a : Args)

def popArgs (acc : Args) : List Item → Option (Args × List Item)
  | .ex e :: st => popArgs (.cons e acc) st
  | .stop :: st => some (acc, st)
  | _ => none

mutual
def decStep : Tok → List Item → Option (List Item)
  | .sym s, .par a :: st => some (.ex (.call s a) :: st)
  | .sym s, st => some (.ex (.name s) :: st)
  | .const v, st => some (.ex (.const v) :: st)
  | .stop _, st => some (.stop :: st)
  | .parlist, st => (popArgs .nil st).map fun (a, st) => .par a :: st
  | .array, st => (popArgs .nil st).map fun (a, st) => .ex (.arr a) :: st
  | .un op, .ex e :: st => some (.ex (.un op e) :: st)
  | .un _, _ => none
  | .bin op, .ex b :: .ex a :: st => some (.ex (.bin op a b) :: st)
  | .bin _, _ => none
  | .tern t f, .ex c :: st =>
    match decList t [], decList f [] with
    | some [.ex t], some [.ex f] => some (.ex (.tern c t f) :: st)
    | _, _ => none
  | .tern _ _, _ => none

def decList : List Tok → List Item → Option (List Item)
  | [], st => some st
  | t :: l, st => (decStep t st).bind (decList l)
end

theorem decList_append (l m : List Tok) (st : List Item) : decList (l ++ m) st = (decList l st).bind (decList m) := by
  induction l generalizing st with
  | nil => simp [decList]
  | cons t l ih =>
    simp only [List.cons_append, decList]
    cases decStep t st with
    | none => rfl
    | some s => simp only [Option.bind_some]; exact ih s

/-- the items of the arguments, last first -/
def pushArgs : Args → List Item → List Item
  | .nil, st => st
  | .cons e r, st => pushArgs r (.ex e :: st)

theorem popArgs_push (a acc : Args) (st : List Item) : popArgs acc (pushArgs a st) = popArgs (snoc a acc) st := by
  induction a using Args.rec (motive_1 := fun _ => True) generalizing acc st with
  | nil => rfl
  | cons e r _ ih => simp only [pushArgs, snoc, ih, popArgs]
  | _ => trivial

def noPar : List Item → Prop
  | .par _ :: _ => False
  | _ => True

theorem snoc_nil (a : Args) : snoc a .nil = a := by
  induction a using Args.rec (motive_1 := fun _ => True) with
  | nil => rfl
  | cons e r _ ih => simp only [snoc, ih]
  | _ => trivial

theorem noPar_push (a : Args) (st : List Item) (h : noPar st) : noPar (pushArgs a st) := by
  induction a using Args.rec (motive_1 := fun _ => True) generalizing st with
  | nil => exact h
  | cons e r _ ih => exact ih _ trivial
  | _ => trivial

theorem dec_sym (s : List Char) (st : List Item) (h : noPar st) : decStep (.sym s) st = some (.ex (.name s) :: st) := by
  match st, h with
  | [], _ => simp [decStep]
  | .ex _ :: _, _ => simp [decStep]
  | .stop :: _, _ => simp [decStep]

theorem dl_nil (st : List Item) : decList [] st = some st := by rw [decList]
theorem dl_cons (t : Tok) (l : List Tok) (st : List Item) : decList (t :: l) st = (decStep t st).bind (decList l) := by rw [decList]
theorem ds_call (s : List Char) (a : Args) (st : List Item) : decStep (.sym s) (.par a :: st) = some (.ex (.call s a) :: st) := by rw [decStep]
theorem ds_const (v : Base.Val) (st : List Item) : decStep (.const v) st = some (.ex (.const v) :: st) := by rw [decStep]
theorem ds_stop (s : List Char) (st : List Item) : decStep (.stop s) st = some (.stop :: st) := by rw [decStep]
theorem ds_par (a : Args) (st : List Item) : decStep .parlist (pushArgs a (.stop :: st)) = some (.par a :: st) := by
  rw [decStep, popArgs_push, popArgs, snoc_nil]; rfl
theorem ds_arr (a : Args) (st : List Item) : decStep .array (pushArgs a (.stop :: st)) = some (.ex (.arr a) :: st) := by
  rw [decStep, popArgs_push, popArgs, snoc_nil]; rfl
theorem ds_un (op : List Char) (e : Ex) (st : List Item) : decStep (.un op) (.ex e :: st) = some (.ex (.un op e) :: st) := by rw [decStep]
theorem ds_bin (op : List Char) (a b : Ex) (st : List Item) : decStep (.bin op) (.ex b :: .ex a :: st) = some (.ex (.bin op a b) :: st) := by
  rw [decStep]
theorem ds_tern (c t f : Ex) (lt lf : List Tok) (st : List Item) (ht : decList lt [] = some [.ex t]) (hf : decList lf [] = some [.ex f]) :
    decStep (.tern lt lf) (.ex c :: st) = some (.ex (.tern c t f) :: st) := by
  rw [decStep, ht, hf]

theorem rpn_call (f : List Char) (a : Args) : rpn (.call f a) = .stop ['('] :: (rpnArgs a ++ [.parlist, .sym f]) := by rw [rpn]; rfl
theorem rpn_arr (a : Args) : rpn (.arr a) = .stop ['\'', '{'] :: (rpnArgs a ++ [.array]) := by rw [rpn]; rfl

mutual
theorem dec_rpn : ∀ (e : Ex) (st : List Item), noPar st → decList (rpn e) st = some (.ex e :: st)
  | .name s, st, h => by rw [rpn, dl_cons, dec_sym s st h, Option.bind_some, dl_nil]
  | .const v, st, h => by rw [rpn, dl_cons, ds_const, Option.bind_some, dl_nil]
  | .call f a, st, h => by
    rw [rpn_call, dl_cons, ds_stop, Option.bind_some, decList_append, dec_args a (.stop :: st) trivial, Option.bind_some, dl_cons, ds_par,
      Option.bind_some, dl_cons, ds_call, Option.bind_some, dl_nil]
  | .arr a, st, h => by
    rw [rpn_arr, dl_cons, ds_stop, Option.bind_some, decList_append, dec_args a (.stop :: st) trivial, Option.bind_some, dl_cons, ds_arr,
      Option.bind_some, dl_nil]
  | .un op e, st, h => by
    rw [rpn, decList_append, dec_rpn e st h, Option.bind_some, dl_cons, ds_un, Option.bind_some, dl_nil]
  | .bin op a b, st, h => by
    rw [rpn, decList_append, decList_append, dec_rpn a st h, Option.bind_some, dec_rpn b (.ex a :: st) trivial, Option.bind_some, dl_cons,
      ds_bin, Option.bind_some, dl_nil]
  | .tern c t f, st, h => by
    rw [rpn, decList_append, dec_rpn c st h, Option.bind_some, dl_cons, ds_tern c t f _ _ st (dec_rpn t [] trivial) (dec_rpn f [] trivial),
      Option.bind_some, dl_nil]
theorem dec_args : ∀ (a : Args) (st : List Item), noPar st → decList (rpnArgs a) st = some (pushArgs a st)
  | .nil, st, h => by rw [rpnArgs, dl_nil]; rfl
  | .cons e r, st, h => by
    rw [rpnArgs, decList_append, dec_rpn e st h, Option.bind_some, dec_args r (.ex e :: st) trivial]; rfl
end

theorem rpn_injective (a b : Ex) (h : rpn a = rpn b) : a = b := by
  have h1 := dec_rpn a [] trivial
  rw [h, dec_rpn b [] trivial] at h1
  simpa using h1.symm

/-- C38: the grammar is unambiguous: a text has only one tree -/
theorem text_unique (a b : Ex) (t : List Char) (ha : Text 0 a t) (hb : Text 0 b t) : a = b := by
  have h1 := parse_all false a t ha
  rw [parse_all false b t hb] at h1
  simp only [PRes.ok.injEq, Prod.mk.injEq, and_true] at h1
  exact (rpn_injective b a h1).symm

/-- C38: operators of higher levels bind tighter, those of one level associate to the left: `a op1 b op2 c` -/
theorem parse_three (ci : Bool) (p q : ℕ) (op1 op2 a b c b1 b2 b3 b4 : List Char) (h1 : opLevel op1 = some p) (h2 : opLevel op2 = some q)
    (ha : IsName a) (hb : IsName b) (hc : IsName c) (k1 : Blank b1) (k2 : Blank b2) (k3 : Blank b3) (k4 : Blank b4) :
    parse ci (a ++ b1 ++ op1 ++ b2 ++ b ++ b3 ++ op2 ++ b4 ++ c) =
      .ok (if q ≤ p then [.sym a, .sym b, .bin op1, .sym c, .bin op2] else [.sym a, .sym b, .sym c, .bin op2, .bin op1], []) := by
  have up : ∀ (k r : ℕ) (e : Ex) (t : List Char), k + r ≤ 7 → Text (k + r) e t → Text r e t := by
    intro k
    induction k with
    | zero => intro r e t _ h; simpa using h
    | succ k ih =>
      intro r e t hk h
      exact .up r e t (by omega) (ih (r + 1) e t (by omega) (by rwa [show k + (r + 1) = k + 1 + r by omega]))
  have nm : ∀ s, IsName s → ∀ r, r ≤ 7 → Text r (.name s) s := fun s hs r hr =>
    up (7 - r) r _ _ (by omega) (by rw [show 7 - r + r = 7 by omega]; exact .name s hs)
  obtain ⟨p1, p5⟩ := opLevel_range h1
  obtain ⟨q1, q5⟩ := opLevel_range h2
  split
  · rename_i hqp
    have t1 := Text.bin p op1 _ _ _ _ b1 b2 h1 (nm a ha p (by omega)) (nm b hb (p + 1) (by omega)) k1 k2
    have t2 := Text.bin q op2 _ _ _ _ b3 b4 h2 (up (p - q) q _ _ (by omega) (by rw [show p - q + q = p by omega]; exact t1))
      (nm c hc (q + 1) (by omega)) k3 k4
    have := parse_all ci _ _ (up q 0 _ _ (by omega) t2)
    simpa [rpn] using this
  · rename_i hqp
    have t1 := Text.bin q op2 _ _ _ _ b3 b4 h2 (nm b hb q (by omega)) (nm c hc (q + 1) (by omega)) k3 k4
    have t2 := Text.bin p op1 _ _ _ _ b1 b2 h1 (nm a ha p (by omega))
      (up (q - (p + 1)) (p + 1) _ _ (by omega) (by rw [show q - (p + 1) + (p + 1) = q by omega]; exact t1)) k1 k2
    have := parse_all ci _ _ (up p 0 _ _ (by omega) t2)
    simpa [rpn] using this

/-- `a + 2*b` is a text of the sum, `a*-b` of the product with a negated factor -/
example : Text 0 (.bin ['+'] (.name ['a']) (.bin ['*'] (.name ['2']) (.name ['b']))) ['a', ' ', '+', ' ', '2', '*', 'b'] := by
  have nm : ∀ c : Char, identHead c = true → Text 7 (.name [c]) [c] := fun c h => .name _ (.ident c [] h (by simp))
  have n2 : Text 7 (.name ['2']) ['2'] := .name _ (.num ['2'] [] (by decide) (by simp) (by simp) (by simp) (by simp))
  have up : ∀ (p : ℕ) (e : Ex) (t : List Char), p < 7 → Text (p + 1) e t → Text p e t := fun p e t hp h => .up p e t hp h
  have t1 := Text.bin 5 ['*'] _ _ _ _ [] [] rfl (up 5 _ _ (by omega) (up 6 _ _ (by omega) n2))
    (up 6 _ _ (by omega) (nm 'b' (by decide))) blank_nil blank_nil
  have t2 := Text.bin 4 ['+'] _ _ _ _ [' '] [' '] rfl
    (up 4 _ _ (by omega) (up 5 _ _ (by omega) (up 6 _ _ (by omega) (nm 'a' (by decide))))) t1 (by decide) (by decide)
  exact up 0 _ _ (by omega) (up 1 _ _ (by omega) (up 2 _ _ (by omega) (up 3 _ _ (by omega) t2)))

example : parse false ['a', '-', 'b', '-', 'c'] = .ok ([.sym ['a'], .sym ['b'], .bin ['-'], .sym ['c'], .bin ['-']], []) :=
  parse_three false 4 4 ['-'] ['-'] ['a'] ['b'] ['c'] [] [] [] [] rfl rfl (.ident 'a' [] (by decide) (by simp))
    (.ident 'b' [] (by decide) (by simp)) (.ident 'c' [] (by decide) (by simp)) blank_nil blank_nil blank_nil blank_nil

example : IsName ['1', '.', '5', 'e', '-', '3'] :=
  .numexp ['1', '.', '5'] 'e' ['-'] ['3'] [] (by decide) (by simp) (Or.inl rfl) (by simp) (by decide) (by simp) (by simp)

/-! ## Texts that are read otherwise than the grammar says (defects) -/

def PRes.isErr {α : Type} : PRes α → Bool
  | .err => true
  | _ => false

/-- a blank before a sign: `-` may follow it, `+` and `!` may not (the later alternatives of the pattern are compared where the match
began, ap_match.cc:81) -/
theorem blank_sign_wrong : parse false [' ', '-', 'a'] = .ok ([.sym ['a'], .un ['-']], []) ∧
    (parse false [' ', '+', 'a']).isErr = true ∧ (parse false [' ', '!', 'a']).isErr = true :=
  ⟨by with_unfolding_all rfl, by decide +kernel, by decide +kernel⟩

/-- a backslash is taken as an operator, as the pattern `\\|\\|` matches it; the operator has no meaning (`Base.binop` is asked for `\`) -/
theorem backslash_operator_wrong : parse false ['a', '\\', 'b'] = .ok ([.sym ['a'], .sym ['b'], .bin ['\\']], []) := by
  with_unfolding_all rfl

/-- the comma after an operator is skipped with the blanks: `f(a+,b)` is a call with one argument -/
theorem operator_eats_comma : parse false ['f', '(', 'a', '+', ',', 'b', ')'] =
    .ok (rpn (.call ['f'] (.cons (.bin ['+'] (.name ['a']) (.name ['b'])) .nil)), []) := by
  with_unfolding_all rfl

/-- the comma after `<a>` is skipped with the blanks, so it cannot be followed by another argument -/
theorem angle_eats_comma : (parse false ['f', '(', '<', 'a', '>', ',', 'b', ')']).isErr = true := by decide +kernel

end Gnucap.Expr
