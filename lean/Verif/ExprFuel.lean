import Verif.ExprLemmas

/-!
# The reader of expressions: more fuel does not change the outcome, every token moves the cursor, reading ends
-/
set_option linter.unusedSimpArgs false

namespace Gnucap.Expr
open Gnucap.Scan Gnucap.Num

/-- `y` is the outcome with more fuel than `x` -/
def Le {α : Type} (x y : PRes α) : Prop := x = .fuel ∨ x = y

theorem Le.rfl' {α : Type} (x : PRes α) : Le x x := Or.inr rfl

theorem Le.bind {α β : Type} {x y : PRes α} {f g : α → PRes β} (h : Le x y) (hf : ∀ a, Le (f a) (g a)) :
    Le (x.bind f) (y.bind g) := by
  rcases h with h | h
  · subst h; exact Or.inl rfl
  · subst h
    cases x with
    | ok a => exact hf a
    | err => exact Or.inr rfl
    | fuel => exact Or.inl rfl

structure Mono (ci : Bool) (n m : ℕ) : Prop where
  arglisttail : ∀ st, Le (arglisttail ci n st) (arglisttail ci m st)
  arglist : ∀ st, Le (arglist ci n st) (arglist ci m st)
  arrayTail : ∀ st, Le (arrayTail ci n st) (arrayTail ci m st)
  leaf : ∀ st, Le (leaf ci n st) (leaf ci m st)
  factor : ∀ st, Le (factor ci n st) (factor ci m st)
  operand : ∀ st, Le (operand ci n st) (operand ci m st)
  ternary : ∀ st, Le (ternary ci n st) (ternary ci m st)
  termtail : ∀ st, Le (termtail ci n st) (termtail ci m st)
  term : ∀ st, Le (term ci n st) (term ci m st)
  addexptail : ∀ st, Le (addexptail ci n st) (addexptail ci m st)
  addexp : ∀ st, Le (addexp ci n st) (addexp ci m st)
  logicaltail : ∀ st, Le (logicaltail ci n st) (logicaltail ci m st)
  logical : ∀ st, Le (logical ci n st) (logical ci m st)
  andtail : ∀ st, Le (andtail ci n st) (andtail ci m st)
  andarg : ∀ st, Le (andarg ci n st) (andarg ci m st)
  exptail : ∀ st, Le (exptail ci n st) (exptail ci m st)
  expression : ∀ st, Le (expression ci n st) (expression ci m st)

theorem mono (ci : Bool) (n m : ℕ) (h : n ≤ m) : Mono ci n m := by
  induction n generalizing m with
  | zero =>
    constructor <;> intro st <;> left <;> obtain ⟨o, s⟩ := st
    · simp only [arglisttail]
    · simp only [arglist]
    · simp only [arrayTail]
    · simp only [leaf]
    · simp only [factor]
    · simp only [operand]
    · simp only [ternary]
    · simp only [termtail]
    · simp only [term]
    · simp only [addexptail]
    · simp only [addexp]
    · simp only [logicaltail]
    · simp only [logical]
    · simp only [andtail]
    · simp only [andarg]
    · simp only [exptail]
    · simp only [expression]
  | succ n ih =>
    cases m with
    | zero => omega
    | succ m =>
      have H := ih m (by omega)
      constructor <;> rintro ⟨o, s⟩
      · simp only [arglisttail]
        split
        · exact (H.expression _).bind H.arglisttail
        · exact Le.rfl' _
      · simp only [arglist]
        split
        · split
          · exact Le.rfl' _
          · exact ((H.expression _).bind H.arglisttail).bind fun _ => Le.rfl' _
        · exact Le.rfl' _
      · simp only [arrayTail]
        split
        · exact Le.rfl' _
        · exact ((H.expression _).bind H.arglisttail).bind fun _ => Le.rfl' _
      · simp only [leaf]
        split
        · exact Le.rfl' _
        · split
          · exact Le.rfl' _
          · split
            · exact H.arrayTail _
            · split
              · exact (H.arglist _).bind fun _ => Le.rfl' _
              · exact Le.rfl' _
      · simp only [factor]
        split
        · exact (H.operand _).bind fun _ => Le.rfl' _
        · exact H.operand _
      · simp only [operand]
        split
        · exact (H.expression _).bind fun _ => Le.rfl' _
        · exact H.leaf _
      · simp only [ternary]
        refine (H.expression _).bind fun a => ?_
        obtain ⟨t, r⟩ := a
        simp only
        split
        · exact (H.expression _).bind fun _ => Le.rfl' _
        · exact Le.rfl' _
      · simp only [termtail]
        split
        · exact (H.factor _).bind fun _ => H.termtail _
        · exact Le.rfl' _
      · simp only [term]
        exact (H.factor _).bind H.termtail
      · simp only [addexptail]
        split
        · exact (H.term _).bind fun _ => H.addexptail _
        · exact Le.rfl' _
      · simp only [addexp]
        exact (H.term _).bind H.addexptail
      · simp only [logicaltail]
        split
        · exact (H.addexp _).bind fun _ => H.logicaltail _
        · exact Le.rfl' _
      · simp only [logical]
        exact (H.addexp _).bind H.logicaltail
      · simp only [andtail]
        split
        · exact (H.logical _).bind fun _ => H.andtail _
        · exact Le.rfl' _
      · simp only [andarg]
        exact (H.logical _).bind H.andtail
      · simp only [exptail]
        split
        · exact (H.andarg _).bind fun _ => H.exptail _
        · split
          · exact H.ternary _
          · exact Le.rfl' _
      · simp only [expression]
        exact (H.andarg _).bind H.exptail

/-! ## progress -/

/-- on success, the cursor satisfies `P` -/
def Ends (P : List Char → Prop) (x : PRes St) : Prop := ∀ st, x = .ok st → P st.2

theorem Ends.bind {P Q : List Char → Prop} {x : PRes St} {f : St → PRes St} (h : Ends P x) (hf : ∀ st, P st.2 → Ends Q (f st)) :
    Ends Q (x.bind f) := by
  intro st hst
  cases x with
  | ok a => exact hf a (h a rfl) st hst
  | err => cases hst
  | fuel => cases hst

theorem Ends.ok {P : List Char → Prop} (st : St) (h : P st.2) : Ends P (.ok st) := by
  intro st' e; cases e; exact h

theorem Ends.err {P : List Char → Prop} : Ends P .err := fun _ e => nomatch e
theorem Ends.fuel {P : List Char → Prop} : Ends P .fuel := fun _ e => nomatch e

theorem Ends.imp {P Q : List Char → Prop} {x : PRes St} (h : Ends P x) (hpq : ∀ s, P s → Q s) : Ends Q x := fun st e => hpq _ (h st e)

abbrev Lt (s r : List Char) : Prop := r.length < s.length
abbrev LE' (s r : List Char) : Prop := r.length ≤ s.length

theorem quoted_lt (s d r : List Char) (h : quoted s = some (d, r)) : r.length < s.length := by
  induction s using quoted.induct generalizing d r with
  | case1 => cases h
  | case2 t ih =>
    simp only [quoted, Option.map_eq_some_iff, Prod.exists] at h
    obtain ⟨a, b, h, e⟩ := h
    cases e
    have := ih _ _ h
    simp only [List.length_cons]; omega
  | case3 t ih =>
    simp only [quoted, Option.map_eq_some_iff, Prod.exists] at h
    obtain ⟨a, b, h, e⟩ := h
    cases e
    have := ih _ _ h
    simp only [List.length_cons]; omega
  | case4 t => simp only [quoted, Option.some.injEq, Prod.mk.injEq] at h; obtain ⟨-, rfl⟩ := h; simp
  | case5 c t h1 h2 h3 ih =>
    rw [quoted] at h
    · simp only [Option.map_eq_some_iff, Prod.exists] at h
      obtain ⟨a, b, h, e⟩ := h
      cases e
      have := ih _ _ h
      simp only [List.length_cons]; omega
    · exact h1
    · exact h2
    · exact h3

theorem angled_le (q : ℕ) (s : List Char) : (angled q s).2.length ≤ s.length := by
  induction q, s using angled.induct with
  | case1 q => simp [angled]
  | case2 q t h => rw [angled]; simp [h]
  | case3 q t h d r e ih => rw [angled]; simp [h] ; simp only [e] at ih ⊢; omega
  | case4 q t d r e ih => rw [angled]; simp only [e] at ih ⊢; simp; omega
  | case5 q t d r e ih => rw [angled]; simp only [e] at ih ⊢; simp; omega
  | case6 q t h ih => rw [angled]; simp; omega; exact h
  | case7 q c t h1 h2 h3 h4 d r e ih =>
    rw [angled]
    · simp only [e] at ih ⊢; simp; omega
    all_goals assumption

theorem unary_lt {ci : Bool} {s n r : List Char} (h : umatchName ci patUnary s = some (n, r)) : r.length < s.length :=
  umatchName_lt ci altsUnary (by decide) (by decide) (by decide) s n r (by rw [← h, pats.1]; rfl)

theorem term_lt {ci : Bool} {s n r : List Char} (h : umatchName ci patTerm s = some (n, r)) : r.length < s.length :=
  umatchName_lt ci altsTerm (by decide) (by decide) (by decide) s n r (by rw [← h, pats.2.1]; rfl)

theorem add_lt {ci : Bool} {s n r : List Char} (h : umatchName ci patAdd s = some (n, r)) : r.length < s.length :=
  umatchName_lt ci altsAdd (by decide) (by decide) (by decide) s n r (by rw [← h, pats.2.2.1]; rfl)

theorem logical_lt {ci : Bool} {s n r : List Char} (h : umatchName ci patLogical s = some (n, r)) : r.length < s.length :=
  umatchName_lt ci altsLogical (by decide) (by decide) (by decide) s n r (by rw [← h, pats.2.2.2.1]; rfl)

theorem and_lt {ci : Bool} {s n r : List Char} (h : umatchName ci patAnd s = some (n, r)) : r.length < s.length :=
  umatchName_lt ci altsAnd (by decide) (by decide) (by decide) s n r (by rw [← h, pats.2.2.2.2.1]; rfl)

theorem quest_lt {ci : Bool} {s n r : List Char} (h : umatchName ci patQuest s = some (n, r)) : r.length < s.length :=
  umatchName_lt ci altsQuest (by decide) (by decide) (by decide) s n r (by rw [← h, pats.2.2.2.2.2]; rfl)

structure Prog (ci : Bool) (n : ℕ) : Prop where
  arglisttail : ∀ st, Ends (LE' st.2) (arglisttail ci n st)
  arglist : ∀ st, Ends (LE' st.2) (arglist ci n st)
  arrayTail : ∀ st, Ends (Lt st.2) (arrayTail ci n st)
  leaf : ∀ st, Ends (Lt st.2) (leaf ci n st)
  factor : ∀ st, Ends (Lt st.2) (factor ci n st)
  operand : ∀ st, Ends (Lt st.2) (operand ci n st)
  ternary : ∀ st, Ends (Lt st.2) (ternary ci n st)
  termtail : ∀ st, Ends (LE' st.2) (termtail ci n st)
  term : ∀ st, Ends (Lt st.2) (term ci n st)
  addexptail : ∀ st, Ends (LE' st.2) (addexptail ci n st)
  addexp : ∀ st, Ends (Lt st.2) (addexp ci n st)
  logicaltail : ∀ st, Ends (LE' st.2) (logicaltail ci n st)
  logical : ∀ st, Ends (Lt st.2) (logical ci n st)
  andtail : ∀ st, Ends (LE' st.2) (andtail ci n st)
  andarg : ∀ st, Ends (Lt st.2) (andarg ci n st)
  exptail : ∀ st, Ends (LE' st.2) (exptail ci n st)
  expression : ∀ st, Ends (Lt st.2) (expression ci n st)

theorem prog (ci : Bool) (n : ℕ) : Prog ci n := by
  induction n with
  | zero =>
    constructor <;> rintro ⟨o, s⟩ <;>
      simp only [arglisttail, arglist, arrayTail, leaf, factor, operand, ternary, termtail, term, addexptail, addexp, logicaltail,
        logical, andtail, andarg, exptail, expression] <;> exact Ends.fuel
  | succ n H =>
    constructor <;> rintro ⟨o, s⟩
    · simp only [arglisttail]
      split
      · rename_i r e
        have := skip1b_lt _ _ _ e
        refine (H.expression _).bind fun st h1 => (H.arglisttail _).imp fun u h2 => ?_
        simp only [Lt, LE'] at *; omega
      · rename_i r e
        exact Ends.ok _ (skip1b_le _ _ _ e)
    · simp only [arglist]
      split
      · rename_i r e
        have hr := skip1b_lt _ _ _ e
        split
        · rename_i u e
          have := skip1b_lt _ _ _ e
          exact Ends.ok _ (by simp only [LE']; omega)
        · rename_i u e
          have := skip1b_le _ _ _ e
          refine ((H.expression _).bind (Q := Lt u) fun st h1 => (H.arglisttail _).imp fun u h2 => ?_).bind fun st h1 => ?_
          · simp only [Lt, LE'] at *; omega
          · obtain ⟨oo, v⟩ := st
            simp only
            split
            · rename_i w e
              have := skip1b_lt _ _ _ e
              refine Ends.ok _ ?_
              simp only [Lt, LE'] at *; omega
            · exact Ends.err
      · rename_i r e
        exact Ends.ok _ (skip1b_le _ _ _ e)
    · simp only [arrayTail]
      split
      · rename_i r e
        exact Ends.ok _ (skip1b_lt _ _ _ e)
      · rename_i u e
        have := skip1b_le _ _ _ e
        refine ((H.expression _).bind (Q := Lt u) fun st h1 => (H.arglisttail _).imp fun u h2 => ?_).bind fun st h1 => ?_
        · simp only [Lt, LE'] at *; omega
        · obtain ⟨oo, v⟩ := st
          simp only
          split
          · rename_i w e
            have := skip1b_lt _ _ _ e
            refine Ends.ok _ ?_
            simp only [Lt, LE'] at *; omega
          · exact Ends.err
    · simp only [leaf]
      split
      · rename_i e
        cases s with
        | nil => cases e
        | cons c s =>
          simp only [List.tail_cons]
          split
          · rename_i d r e
            have := quoted_lt _ _ _ e
            have := skipbl_le r
            refine Ends.ok _ ?_
            simp only [Lt, List.length_cons]; omega
          · exact Ends.err
      · split
        · rename_i e
          cases s with
          | nil => cases e
          | cons c s =>
            have := angled_le 1 s
            have := skipcom_le (angled 1 s).2
            refine Ends.ok _ ?_
            simp only [Lt, List.length_cons, List.tail_cons]; omega
        · split
          · rename_i r e
            have := skip1b_lt _ _ _ e
            refine (H.arrayTail _).imp fun u h => ?_
            simp only [Lt, List.length_cons] at *; omega
          · split
            · rename_i h
              refine (H.arglist _).bind fun st h1 => Ends.ok _ ?_
              simp only [Lt, LE'] at *; omega
            · exact Ends.err
    · simp only [factor]
      split
      · rename_i nm r e
        have := unary_lt e
        refine (H.operand _).bind fun st h1 => Ends.ok _ ?_
        simp only [Lt] at *; omega
      · exact H.operand _
    · simp only [operand]
      split
      · rename_i r e
        have := skip1b_lt _ _ _ e
        refine (H.expression _).bind fun st h1 => ?_
        obtain ⟨oo, v⟩ := st
        simp only
        split
        · rename_i w e
          have := skip1b_lt _ _ _ e
          refine Ends.ok _ ?_
          simp only [Lt, LE'] at *; omega
        · exact Ends.err
      · rename_i r e
        have := skip1b_le _ _ _ e
        refine (H.leaf _).imp fun u h => ?_
        simp only [Lt] at *; omega
    · simp only [ternary]
      refine (H.expression _).bind fun st h1 => ?_
      obtain ⟨oo, v⟩ := st
      simp only
      split
      · rename_i w e
        have := skip1b_lt _ _ _ e
        refine (H.expression _).bind fun st h1 => Ends.ok _ ?_
        simp only [Lt, LE'] at *; omega
      · exact Ends.err
    · simp only [termtail]
      split
      · rename_i nm r e
        have := term_lt e
        refine (H.factor _).bind fun st h1 => (H.termtail _).imp fun u h2 => ?_
        simp only [Lt, LE'] at *; omega
      · exact Ends.ok _ le_rfl
    · simp only [term]
      refine (H.factor _).bind fun st h1 => (H.termtail _).imp fun u h2 => ?_
      simp only [Lt, LE'] at *; omega
    · simp only [addexptail]
      split
      · rename_i nm r e
        have := add_lt e
        refine (H.term _).bind fun st h1 => (H.addexptail _).imp fun u h2 => ?_
        simp only [Lt, LE'] at *; omega
      · exact Ends.ok _ le_rfl
    · simp only [addexp]
      refine (H.term _).bind fun st h1 => (H.addexptail _).imp fun u h2 => ?_
      simp only [Lt, LE'] at *; omega
    · simp only [logicaltail]
      split
      · rename_i nm r e
        have := logical_lt e
        refine (H.addexp _).bind fun st h1 => (H.logicaltail _).imp fun u h2 => ?_
        simp only [Lt, LE'] at *; omega
      · exact Ends.ok _ le_rfl
    · simp only [logical]
      refine (H.addexp _).bind fun st h1 => (H.logicaltail _).imp fun u h2 => ?_
      simp only [Lt, LE'] at *; omega
    · simp only [andtail]
      split
      · rename_i nm r e
        have := and_lt e
        refine (H.logical _).bind fun st h1 => (H.andtail _).imp fun u h2 => ?_
        simp only [Lt, LE'] at *; omega
      · exact Ends.ok _ le_rfl
    · simp only [andarg]
      refine (H.logical _).bind fun st h1 => (H.andtail _).imp fun u h2 => ?_
      simp only [Lt, LE'] at *; omega
    · simp only [exptail]
      split
      · rename_i nm r e
        have := umatchName_or_lt _ _ _ _ e
        refine (H.andarg _).bind fun st h1 => (H.exptail _).imp fun u h2 => ?_
        simp only [Lt, LE'] at *; omega
      · split
        · rename_i nm r e
          have := quest_lt e
          refine (H.ternary _).imp fun u h2 => ?_
          simp only [Lt, LE'] at *; omega
        · exact Ends.ok _ le_rfl
    · simp only [expression]
      refine (H.andarg _).bind fun st h1 => (H.exptail _).imp fun u h2 => ?_
      simp only [Lt, LE'] at *; omega

/-! ## reading ends -/

/-- not out of fuel -/
def Done (x : PRes St) : Prop := x ≠ .fuel

theorem Done.bind {P : List Char → Prop} {x : PRes St} {f : St → PRes St} (h : Done x) (hp : Ends P x) (hf : ∀ st, P st.2 → Done (f st)) :
    Done (x.bind f) := by
  cases x with
  | ok a => exact hf a (hp a rfl)
  | err => exact fun e => nomatch e
  | fuel => exact absurd rfl h

theorem Done.ok (st : St) : Done (.ok st) := fun e => nomatch e
theorem Done.err : Done .err := fun e => nomatch e

/-- the fuel that suffices -/
abbrev Enough (k n : ℕ) (s : List Char) : Prop := 20 * s.length + k ≤ n

structure Total (ci : Bool) (n : ℕ) : Prop where
  arglisttail : ∀ st, Enough 1 n st.2 → Done (arglisttail ci n st)
  arglist : ∀ st, Enough 1 n st.2 → Done (arglist ci n st)
  arrayTail : ∀ st, Enough 9 n st.2 → Done (arrayTail ci n st)
  leaf : ∀ st, Enough 1 n st.2 → Done (leaf ci n st)
  factor : ∀ st, Enough 3 n st.2 → Done (factor ci n st)
  operand : ∀ st, Enough 2 n st.2 → Done (operand ci n st)
  ternary : ∀ st, Enough 9 n st.2 → Done (ternary ci n st)
  termtail : ∀ st, Enough 1 n st.2 → Done (termtail ci n st)
  term : ∀ st, Enough 4 n st.2 → Done (term ci n st)
  addexptail : ∀ st, Enough 1 n st.2 → Done (addexptail ci n st)
  addexp : ∀ st, Enough 5 n st.2 → Done (addexp ci n st)
  logicaltail : ∀ st, Enough 1 n st.2 → Done (logicaltail ci n st)
  logical : ∀ st, Enough 6 n st.2 → Done (logical ci n st)
  andtail : ∀ st, Enough 1 n st.2 → Done (andtail ci n st)
  andarg : ∀ st, Enough 7 n st.2 → Done (andarg ci n st)
  exptail : ∀ st, Enough 1 n st.2 → Done (exptail ci n st)
  expression : ∀ st, Enough 8 n st.2 → Done (expression ci n st)

theorem total (ci : Bool) (n : ℕ) : Total ci n := by
  induction n with
  | zero =>
    constructor <;> rintro ⟨o, s⟩ h <;> simp only [Enough] at h <;> omega
  | succ n H =>
    have P := prog ci n
    constructor <;> rintro ⟨o, s⟩ he
    · simp only [arglisttail]
      split
      · rename_i r e
        have := skip1b_lt _ _ _ e
        refine (H.expression _ ?_).bind (P.expression _) fun st h1 => H.arglisttail _ ?_
        all_goals simp only [Enough, Lt] at *; omega
      · exact Done.ok _
    · simp only [arglist]
      split
      · rename_i r e
        have hr := skip1b_lt _ _ _ e
        split
        · exact Done.ok _
        · rename_i u e
          have := skip1b_le _ _ _ e
          refine ((H.expression _ ?_).bind (P.expression _) fun st h1 => H.arglisttail _ ?_).bind (P := fun _ => True)
            (fun _ _ => trivial) fun st h1 => ?_
          · simp only [Enough, Lt] at *; omega
          · simp only [Enough, Lt] at *; omega
          · obtain ⟨oo, v⟩ := st
            simp only
            split
            · exact Done.ok _
            · exact Done.err
      · exact Done.ok _
    · simp only [arrayTail]
      split
      · exact Done.ok _
      · rename_i u e
        have := skip1b_le _ _ _ e
        refine ((H.expression _ ?_).bind (P.expression _) fun st h1 => H.arglisttail _ ?_).bind (P := fun _ => True)
          (fun _ _ => trivial) fun st h1 => ?_
        · simp only [Enough, Lt] at *; omega
        · simp only [Enough, Lt] at *; omega
        · obtain ⟨oo, v⟩ := st
          simp only
          split
          · exact Done.ok _
          · exact Done.err
    · simp only [leaf]
      split
      · split
        · exact Done.ok _
        · exact Done.err
      · split
        · exact Done.ok _
        · split
          · rename_i r e
            have := skip1b_lt _ _ _ e
            refine H.arrayTail _ ?_
            simp only [Enough, List.length_cons] at *; omega
          · split
            · rename_i h
              refine (H.arglist _ ?_).bind (P := fun _ => True) (fun _ _ => trivial) fun st h1 => Done.ok _
              simp only [Enough] at *; omega
            · exact Done.err
    · simp only [factor]
      split
      · rename_i nm r e
        have := unary_lt e
        refine (H.operand _ ?_).bind (P := fun _ => True) (fun _ _ => trivial) fun st h1 => Done.ok _
        simp only [Enough] at *; omega
      · refine H.operand _ ?_
        simp only [Enough] at *; omega
    · simp only [operand]
      split
      · rename_i r e
        have := skip1b_lt _ _ _ e
        refine (H.expression _ ?_).bind (P := fun _ => True) (fun _ _ => trivial) fun st h1 => ?_
        · simp only [Enough] at *; omega
        · obtain ⟨oo, v⟩ := st
          simp only
          split
          · exact Done.ok _
          · exact Done.err
      · rename_i r e
        have := skip1b_le _ _ _ e
        refine H.leaf _ ?_
        simp only [Enough] at *; omega
    · simp only [ternary]
      refine (H.expression _ ?_).bind (P.expression _) fun st h1 => ?_
      · simp only [Enough] at *; omega
      · obtain ⟨oo, v⟩ := st
        simp only
        split
        · rename_i w e
          have := skip1b_lt _ _ _ e
          refine (H.expression _ ?_).bind (P := fun _ => True) (fun _ _ => trivial) fun st h1 => Done.ok _
          simp only [Enough, Lt] at *; omega
        · exact Done.err
    · simp only [termtail]
      split
      · rename_i nm r e
        have := term_lt e
        refine (H.factor _ ?_).bind (P.factor _) fun st h1 => H.termtail _ ?_
        all_goals simp only [Enough, Lt] at *; omega
      · exact Done.ok _
    · simp only [term]
      refine (H.factor _ ?_).bind (P.factor _) fun st h1 => H.termtail _ ?_
      all_goals simp only [Enough, Lt] at *; omega
    · simp only [addexptail]
      split
      · rename_i nm r e
        have := add_lt e
        refine (H.term _ ?_).bind (P.term _) fun st h1 => H.addexptail _ ?_
        all_goals simp only [Enough, Lt] at *; omega
      · exact Done.ok _
    · simp only [addexp]
      refine (H.term _ ?_).bind (P.term _) fun st h1 => H.addexptail _ ?_
      all_goals simp only [Enough, Lt] at *; omega
    · simp only [logicaltail]
      split
      · rename_i nm r e
        have := logical_lt e
        refine (H.addexp _ ?_).bind (P.addexp _) fun st h1 => H.logicaltail _ ?_
        all_goals simp only [Enough, Lt] at *; omega
      · exact Done.ok _
    · simp only [logical]
      refine (H.addexp _ ?_).bind (P.addexp _) fun st h1 => H.logicaltail _ ?_
      all_goals simp only [Enough, Lt] at *; omega
    · simp only [andtail]
      split
      · rename_i nm r e
        have := and_lt e
        refine (H.logical _ ?_).bind (P.logical _) fun st h1 => H.andtail _ ?_
        all_goals simp only [Enough, Lt] at *; omega
      · exact Done.ok _
    · simp only [andarg]
      refine (H.logical _ ?_).bind (P.logical _) fun st h1 => H.andtail _ ?_
      all_goals simp only [Enough, Lt] at *; omega
    · simp only [exptail]
      split
      · rename_i nm r e
        have := umatchName_or_lt _ _ _ _ e
        refine (H.andarg _ ?_).bind (P.andarg _) fun st h1 => H.exptail _ ?_
        all_goals simp only [Enough, Lt] at *; omega
      · split
        · rename_i nm r e
          have := quest_lt e
          refine H.ternary _ ?_
          simp only [Enough] at *; omega
        · exact Done.ok _
    · simp only [expression]
      refine (H.andarg _ ?_).bind (P.andarg _) fun st h1 => H.exptail _ ?_
      all_goals simp only [Enough, Lt] at *; omega

/-- reading an expression ends: the fuel of `parse` always suffices -/
theorem parse_total (ci : Bool) (s : List Char) : parse ci s ≠ .fuel :=
  (total ci _).expression ([], s) (by simp only [Enough]; omega)

/-- more fuel than `parse` gives does not change the outcome -/
theorem parse_fuel (ci : Bool) (s : List Char) (n : ℕ) (h : 20 * s.length + 20 ≤ n) : expression ci n ([], s) = parse ci s := by
  rcases (mono ci _ n h).expression ([], s) with e | e
  · exact absurd e (parse_total ci s)
  · exact e.symm

/-- any amount of fuel that suffices gives the outcome of `parse` -/
theorem parse_of (ci : Bool) (s : List Char) (n : ℕ) (x : PRes St) (hx : x ≠ .fuel) (h : expression ci n ([], s) = x) : parse ci s = x := by
  rcases (mono ci n (max n (20 * s.length + 20)) (le_max_left _ _)).expression ([], s) with e | e
  · exact absurd (h.symm.trans e) hx
  · rw [← parse_fuel ci s _ (le_max_right _ _), ← e, h]

/-- a successful read has moved the cursor -/
theorem parse_progress (ci : Bool) (s : List Char) (l : List Tok) (r : List Char) (h : parse ci s = .ok (l, r)) : r.length < s.length :=
  (prog ci _).expression ([], s) _ h

end Gnucap.Expr
