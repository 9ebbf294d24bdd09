import Verif.ReduceProps
import Mathlib.Tactic.Ring
import Mathlib.Tactic.NormNum
import Mathlib.Tactic.Push

/-!
# Reducing against a partly known scope keeps the value in every completion of the scope
-/
set_option linter.unusedSimpArgs false
namespace Gnucap.Expr
open Gnucap.Scan Gnucap.Num

/-! ## sums and products can be regrouped and reordered -/

theorem mkInt_val (a : ℤ) (v : Base.Val) (h : Base.mkInt a = .val v) : Base.fits a = true ∧ v = .int a := by
  simp only [Base.mkInt] at h
  split at h
  · rename_i hf; cases h; exact ⟨hf, rfl⟩
  · cases h

theorem mkVint_val (a : ℤ) (v : Base.Val) (h : Base.mkVint a = .val v) : Base.fits a = true ∧ v = .vint a := by
  simp only [Base.mkVint] at h
  split at h
  · rename_i hf; cases h; exact ⟨hf, rfl⟩
  · cases h

/-- `(p + z) + y` and `p + (z + y)` are the same constant, if the latter sum does not overflow -/
theorem add_assoc_val (p z y x v u : Base.Val) (h1 : Base.binop .add p z = .val x) (h2 : Base.binop .add x y = .val v)
    (h3 : Base.binop .add z y = .val u) : Base.binop .add p u = .val v := by
  cases p <;> cases z <;> simp only [Base.binop, Base.isStr, Base.addOn, Base.rAddOn, Base.mkFlt, if_true, if_false, Bool.false_eq_true,
      reduceCtorEq] at h1 <;> cases y <;>
    simp only [Base.binop, Base.isStr, Base.addOn, Base.rAddOn, Base.mkFlt, if_true, if_false, Bool.false_eq_true, reduceCtorEq] at h3 <;>
    first
    | (obtain ⟨_, rfl⟩ := mkInt_val _ _ h1; first | obtain ⟨_, rfl⟩ := mkInt_val _ _ h3 | obtain ⟨_, rfl⟩ := mkVint_val _ _ h3 | cases h3)
    | (obtain ⟨_, rfl⟩ := mkVint_val _ _ h1; first | obtain ⟨_, rfl⟩ := mkInt_val _ _ h3 | obtain ⟨_, rfl⟩ := mkVint_val _ _ h3 | cases h3)
    | (cases h1; first | obtain ⟨_, rfl⟩ := mkInt_val _ _ h3 | obtain ⟨_, rfl⟩ := mkVint_val _ _ h3 | cases h3)
  all_goals
    simp only [Base.binop, Base.isStr, Base.addOn, Base.rAddOn, Base.mkFlt, if_true, if_false, Bool.false_eq_true, reduceCtorEq] at h2 ⊢
  all_goals
    rw [← h2]
  all_goals
    first
    | rfl
    | (congr 1; ring1)
    | (congr 2; push_cast; ring1)
    | (simp [List.append_assoc])

theorem mul_assoc_val (p z y x v u : Base.Val) (h1 : Base.binop .mul p z = .val x) (h2 : Base.binop .mul x y = .val v)
    (h3 : Base.binop .mul z y = .val u) : Base.binop .mul p u = .val v := by
  cases p <;> cases z <;> simp only [Base.binop, Base.multiplyOn, Base.mkFlt, reduceCtorEq] at h1 <;> cases y <;>
    simp only [Base.binop, Base.multiplyOn, Base.mkFlt, reduceCtorEq] at h3 <;>
    first
    | (obtain ⟨_, rfl⟩ := mkInt_val _ _ h1; first | obtain ⟨_, rfl⟩ := mkInt_val _ _ h3 | obtain ⟨_, rfl⟩ := mkVint_val _ _ h3 | cases h3)
    | (obtain ⟨_, rfl⟩ := mkVint_val _ _ h1; first | obtain ⟨_, rfl⟩ := mkInt_val _ _ h3 | obtain ⟨_, rfl⟩ := mkVint_val _ _ h3 | cases h3)
    | (cases h1; first | obtain ⟨_, rfl⟩ := mkInt_val _ _ h3 | obtain ⟨_, rfl⟩ := mkVint_val _ _ h3 | cases h3)
  all_goals
    simp only [Base.binop, Base.multiplyOn, Base.mkFlt, reduceCtorEq] at h2 ⊢
  all_goals
    rw [← h2]
  all_goals
    first
    | rfl
    | (congr 1; ring1)
    | (congr 2; push_cast; ring1)

/-- not an integer of Verilog-AMS -/
def notVint : Base.Val → Bool
  | .vint _ => false
  | _ => true

theorem add_comm_val (x y : Base.Val) (hx : notVint x = true) (hy : notVint y = true) (hs : Base.isStr x = false) :
    Base.binop .add x y = Base.binop .add y x := by
  cases x <;> cases y <;> try first | exact absurd hx Bool.false_ne_true | exact absurd hy Bool.false_ne_true | exact absurd hs.symm Bool.false_ne_true
  all_goals simp only [Base.binop, Base.isStr, Base.addOn, Base.rAddOn, Base.mkFlt, if_true, if_false, Bool.false_eq_true]
  all_goals first | rfl | (congr 1; ring1) | (congr 2; ring1)

theorem mul_comm_val (x y : Base.Val) (hx : notVint x = true) (hy : notVint y = true) : Base.binop .mul x y = Base.binop .mul y x := by
  cases x <;> cases y <;> try first | exact absurd hx Bool.false_ne_true | exact absurd hy Bool.false_ne_true
  all_goals simp only [Base.binop, Base.multiplyOn, Base.mkFlt]
  all_goals first | rfl | (congr 1; ring1) | (congr 2; ring1)

theorem isAddMul_op (op : List Char) (o : Base.Op) (h : isAddMul op = true) (ho : opOf op = some o) : o = .add ∨ o = .mul := by
  unfold opOf at ho
  split at ho <;> first | (cases ho; first | exact Or.inl rfl | exact Or.inr rfl | exact absurd h (by decide)) | cases ho

theorem binop_plain (o : Base.Op) (x y v : Base.Val) (hy : notVint y = true) (h : Base.binop o x y = .val v) : notVint v = true := by
  have hb : ∀ b : Bool, ∀ w, Base.mkBool b = .val w → notVint w = true := by intro b w hw; cases hw; rfl
  have hf : ∀ q : ℚ, ∀ w, Base.mkFlt q = .val w → notVint w = true := by intro b w hw; cases hw; rfl
  have hi : ∀ q : ℤ, ∀ w, Base.mkInt q = .val w → notVint w = true := by intro b w hw; rw [(mkInt_val _ _ hw).2]; rfl
  have hd : ∀ a b : ℚ, ∀ w, Base.fdiv a b = .val w → notVint w = true := by
    intro a b w hw; simp only [Base.fdiv] at hw; split at hw
    · cases hw
    · exact hf _ _ hw
  have hm : ∀ a b : ℚ, ∀ w, Base.ffmod a b = .val w → notVint w = true := by
    intro a b w hw; simp only [Base.ffmod] at hw; split at hw
    · cases hw
    · exact hf _ _ hw
  have him : ∀ a b : ℤ, ∀ w, Base.imod Base.mkInt a b = .val w → notVint w = true := by
    intro a b w hw; simp only [Base.imod] at hw; split at hw
    · cases hw
    · exact hi _ _ hw
  cases o <;> cases y <;> try exact absurd hy Bool.false_ne_true
  all_goals cases x
  all_goals simp only [Base.binop, Base.isStr, Base.addOn, Base.rAddOn, Base.multiplyOn, Base.rSubtractOn, Base.rDivideOn, Base.rModuloOn,
    Base.equalOn, Base.notEqualOn, Base.lessOn, Base.greaterOn, Base.leqOn, Base.geqOn, Base.logicOr, Base.logicAnd, if_true, if_false,
    Bool.false_eq_true, reduceCtorEq] at h
  all_goals first
    | exact hb _ _ h
    | exact hf _ _ h
    | exact hi _ _ h
    | exact hd _ _ _ h
    | exact hm _ _ _ h
    | exact him _ _ _ h
    | (cases h; rfl)

theorem unop_plain (o : Base.Uop) (x v : Base.Val) (h : Base.unop o x = .val v) : notVint v = true := by
  have hf : ∀ q : ℚ, ∀ w, Base.mkFlt q = .val w → notVint w = true := by intro b w hw; cases hw; rfl
  have hi : ∀ q : ℤ, ∀ w, Base.mkInt q = .val w → notVint w = true := by intro b w hw; rw [(mkInt_val _ _ hw).2]; rfl
  cases o <;> cases x <;> simp only [Base.unop, Base.minus, Base.plus, Base.logicNot, reduceCtorEq] at h <;>
    first | exact hf _ _ h | exact hi _ _ h | (cases h; rfl)

theorem assign_plain (ty : Ty) (x v : Base.Val) (ht : ty ≠ .vint) (hx : notVint x = true) (h : assign ty x = .val v) : notVint v = true := by
  have hi : ∀ q : ℤ, ∀ w, Base.mkInt q = .val w → notVint w = true := by intro b w hw; rw [(mkInt_val _ _ hw).2]; rfl
  cases ty <;> cases x <;> try first | exact absurd rfl ht | exact absurd hx Bool.false_ne_true
  all_goals simp only [assign, reduceCtorEq] at h
  all_goals first | exact hi _ _ h | (cases h; rfl)

/-! ## the constants that the reader makes are strings -/

mutual
def plainTok : Tok → Prop
  | .const v => notVint v = true
  | .tern t f => plainToks t ∧ plainToks f
  | _ => True

def plainToks : List Tok → Prop
  | [] => True
  | t :: l => plainTok t ∧ plainToks l
end

theorem pt_nil : plainToks [] := by rw [plainToks]; trivial
theorem pt_cons (t : Tok) (l : List Tok) : plainToks (t :: l) ↔ plainTok t ∧ plainToks l := by rw [plainToks]
theorem pt_append (l m : List Tok) : plainToks (l ++ m) ↔ plainToks l ∧ plainToks m := by
  induction l with
  | nil => simp [pt_nil]
  | cons t l ih => rw [List.cons_append, pt_cons, pt_cons, ih, and_assoc]
theorem pt_one (t : Tok) : plainToks [t] ↔ plainTok t := by rw [pt_cons]; simp [pt_nil]
theorem p_sym (s : List Char) : plainTok (.sym s) := by rw [plainTok] <;> first | trivial | (intros; rename_i h; cases h)
theorem p_stop (s : List Char) : plainTok (.stop s) := by rw [plainTok] <;> first | trivial | (intros; rename_i h; cases h)
theorem p_par : plainTok .parlist := by rw [plainTok] <;> first | trivial | (intros; rename_i h; cases h)
theorem p_arr : plainTok .array := by rw [plainTok] <;> first | trivial | (intros; rename_i h; cases h)
theorem p_un (s : List Char) : plainTok (.un s) := by rw [plainTok] <;> first | trivial | (intros; rename_i h; cases h)
theorem p_bin (s : List Char) : plainTok (.bin s) := by rw [plainTok] <;> first | trivial | (intros; rename_i h; cases h)
theorem p_const (v : Base.Val) : plainTok (.const v) ↔ notVint v = true := by rw [plainTok]
theorem p_tern (t f : List Tok) : plainTok (.tern t f) ↔ plainToks t ∧ plainToks f := by rw [plainTok]

/-- the expression has no integer constant of Verilog-AMS -/
def PlainEx (e : Ex) : Prop := plainToks (rpn e)
def PlainArgs (a : Args) : Prop := plainToks (rpnArgs a)

theorem pl_name (s : List Char) : PlainEx (.name s) := by rw [PlainEx, rpn, pt_one]; exact p_sym s
theorem pl_const (v : Base.Val) : PlainEx (.const v) ↔ notVint v = true := by rw [PlainEx, rpn, pt_one, p_const]
theorem pl_call (f : List Char) (a : Args) : PlainEx (.call f a) ↔ PlainArgs a := by
  rw [PlainEx, rpn_call, pt_cons, pt_append, pt_cons, pt_one, PlainArgs]
  simp [p_stop, p_par, p_sym]
theorem pl_arr (a : Args) : PlainEx (.arr a) ↔ PlainArgs a := by
  rw [PlainEx, rpn_arr, pt_cons, pt_append, pt_one, PlainArgs]
  simp [p_stop, p_arr]
theorem pl_un (op : List Char) (e : Ex) : PlainEx (.un op e) ↔ PlainEx e := by
  rw [PlainEx, rpn, pt_append, pt_one, PlainEx]; simp [p_un]
theorem pl_bin (op : List Char) (a b : Ex) : PlainEx (.bin op a b) ↔ PlainEx a ∧ PlainEx b := by
  rw [PlainEx, rpn, pt_append, pt_append, pt_one, PlainEx, PlainEx]; simp [p_bin]
theorem pl_tern (e t f : Ex) : PlainEx (.tern e t f) ↔ PlainEx e ∧ PlainEx t ∧ PlainEx f := by
  rw [PlainEx, rpn, pt_append, pt_one, p_tern, PlainEx, PlainEx, PlainEx]
theorem pl_nil : PlainArgs .nil := by rw [PlainArgs, rpnArgs]; exact pt_nil
theorem pl_cons (e : Ex) (r : Args) : PlainArgs (.cons e r) ↔ PlainEx e ∧ PlainArgs r := by
  rw [PlainArgs, rpnArgs, pt_append, PlainEx, PlainArgs]

structure Plains (ci : Bool) (n : ℕ) : Prop where
  arglisttail : ∀ o s, plainToks o → Gives plainToks (arglisttail ci n (o, s))
  arglist : ∀ o s, plainToks o → Gives plainToks (arglist ci n (o, s))
  arrayTail : ∀ o s, plainToks o → Gives plainToks (arrayTail ci n (o, s))
  leaf : ∀ o s, plainToks o → Gives plainToks (leaf ci n (o, s))
  factor : ∀ o s, plainToks o → Gives plainToks (factor ci n (o, s))
  operand : ∀ o s, plainToks o → Gives plainToks (operand ci n (o, s))
  ternary : ∀ o s, plainToks o → Gives plainToks (ternary ci n (o, s))
  termtail : ∀ o s, plainToks o → Gives plainToks (termtail ci n (o, s))
  term : ∀ o s, plainToks o → Gives plainToks (term ci n (o, s))
  addexptail : ∀ o s, plainToks o → Gives plainToks (addexptail ci n (o, s))
  addexp : ∀ o s, plainToks o → Gives plainToks (addexp ci n (o, s))
  logicaltail : ∀ o s, plainToks o → Gives plainToks (logicaltail ci n (o, s))
  logical : ∀ o s, plainToks o → Gives plainToks (logical ci n (o, s))
  andtail : ∀ o s, plainToks o → Gives plainToks (andtail ci n (o, s))
  andarg : ∀ o s, plainToks o → Gives plainToks (andarg ci n (o, s))
  exptail : ∀ o s, plainToks o → Gives plainToks (exptail ci n (o, s))
  expression : ∀ o s, plainToks o → Gives plainToks (expression ci n (o, s))

theorem pt_snoc (l : List Tok) (t : Tok) (h : plainToks l) (ht : plainTok t) : plainToks (l ++ [t]) := by
  rw [pt_append, pt_one]; exact ⟨h, ht⟩

theorem tail_plain {name : List Char} {x : PRes St} {g : St → PRes St} (hx : Gives plainToks x)
    (hg : ∀ o s, plainToks o → Gives plainToks (g (o, s))) : Gives plainToks (x.bind fun st => g (st.1 ++ [.bin name], st.2)) := by
  refine hx.bind ?_
  rintro ⟨l, s⟩ h
  exact hg _ _ (pt_snoc _ _ h (p_bin name))

theorem seq_plain {x : PRes St} {g : St → PRes St} (hx : Gives plainToks x) (hg : ∀ o s, plainToks o → Gives plainToks (g (o, s))) :
    Gives plainToks (x.bind g) := by
  refine hx.bind ?_
  rintro ⟨l, s⟩ h
  exact hg _ _ h

theorem plains (ci : Bool) (n : ℕ) : Plains ci n := by
  induction n with
  | zero =>
    constructor
    · intro o s _; simp only [arglisttail]; exact Gives.fuel
    · intro o s _; simp only [arglist]; exact Gives.fuel
    · intro o s _; simp only [arrayTail]; exact Gives.fuel
    · intro o s _; simp only [leaf]; exact Gives.fuel
    · intro o s _; simp only [factor]; exact Gives.fuel
    · intro o s _; simp only [operand]; exact Gives.fuel
    · intro o s _; simp only [ternary]; exact Gives.fuel
    · intro o s _; simp only [termtail]; exact Gives.fuel
    · intro o s _; simp only [term]; exact Gives.fuel
    · intro o s _; simp only [addexptail]; exact Gives.fuel
    · intro o s _; simp only [addexp]; exact Gives.fuel
    · intro o s _; simp only [logicaltail]; exact Gives.fuel
    · intro o s _; simp only [logical]; exact Gives.fuel
    · intro o s _; simp only [andtail]; exact Gives.fuel
    · intro o s _; simp only [andarg]; exact Gives.fuel
    · intro o s _; simp only [exptail]; exact Gives.fuel
    · intro o s _; simp only [expression]; exact Gives.fuel
  | succ n H =>
    constructor
    · intro o s h
      simp only [arglisttail]
      split
      · exact seq_plain (H.expression _ _ h) H.arglisttail
      · exact Gives.ok _ h
    · intro o s h
      simp only [arglist]
      split
      · split
        · exact Gives.ok _ (by simp only [pt_append, pt_cons, pt_nil]; simp [h, p_stop, p_par])
        · refine (seq_plain (H.expression _ _ (pt_snoc _ _ h (p_stop _))) H.arglisttail).bind ?_
          rintro ⟨l, s'⟩ ha
          simp only
          split
          · exact Gives.ok _ (pt_snoc _ _ ha p_par)
          · exact Gives.err
      · exact Gives.ok _ h
    · intro o s h
      simp only [arrayTail]
      split
      · exact Gives.ok _ (by simp only [pt_append, pt_cons, pt_nil]; simp [h, p_stop, p_arr])
      · refine (seq_plain (H.expression _ _ (pt_snoc _ _ h (p_stop _))) H.arglisttail).bind ?_
        rintro ⟨l, s'⟩ ha
        simp only
        split
        · exact Gives.ok _ (pt_snoc _ _ ha p_arr)
        · exact Gives.err
    · intro o s h
      simp only [leaf]
      split
      · split
        · exact Gives.ok _ (pt_snoc _ _ h (by rw [p_const]; rfl))
        · exact Gives.err
      · split
        · exact Gives.ok _ (pt_snoc _ _ h (p_sym _))
        · split
          · exact H.arrayTail _ _ h
          · split
            · refine (H.arglist _ _ h).bind ?_
              rintro ⟨l, s'⟩ h2
              exact Gives.ok _ (pt_snoc _ _ h2 (p_sym _))
            · exact Gives.err
    · intro o s h
      simp only [factor]
      split
      · refine (H.operand _ _ h).bind ?_
        rintro ⟨l, s'⟩ h2
        exact Gives.ok _ (pt_snoc _ _ h2 (p_un _))
      · exact H.operand _ _ h
    · intro o s h
      simp only [operand]
      split
      · refine (H.expression _ _ h).bind ?_
        rintro ⟨l, s'⟩ h2
        simp only
        split
        · exact Gives.ok _ h2
        · exact Gives.err
      · exact H.leaf _ _ h
    · intro o s h
      simp only [ternary]
      refine (H.expression _ _ pt_nil).bind ?_
      rintro ⟨l, s'⟩ h2
      simp only
      split
      · refine (H.expression _ _ pt_nil).bind ?_
        rintro ⟨l2, s2⟩ h3
        exact Gives.ok _ (pt_snoc _ _ h ((p_tern _ _).2 ⟨h2, h3⟩))
      · exact Gives.err
    · intro o s h
      simp only [termtail]
      split
      · exact tail_plain (H.factor _ _ h) H.termtail
      · exact Gives.ok _ h
    · intro o s h
      simp only [term]
      exact seq_plain (H.factor _ _ h) H.termtail
    · intro o s h
      simp only [addexptail]
      split
      · exact tail_plain (H.term _ _ h) H.addexptail
      · exact Gives.ok _ h
    · intro o s h
      simp only [addexp]
      exact seq_plain (H.term _ _ h) H.addexptail
    · intro o s h
      simp only [logicaltail]
      split
      · exact tail_plain (H.addexp _ _ h) H.logicaltail
      · exact Gives.ok _ h
    · intro o s h
      simp only [logical]
      exact seq_plain (H.addexp _ _ h) H.logicaltail
    · intro o s h
      simp only [andtail]
      split
      · exact tail_plain (H.logical _ _ h) H.andtail
      · exact Gives.ok _ h
    · intro o s h
      simp only [andarg]
      exact seq_plain (H.logical _ _ h) H.andtail
    · intro o s h
      simp only [exptail]
      split
      · exact tail_plain (H.andarg _ _ h) H.exptail
      · split
        · exact H.ternary _ _ h
        · exact Gives.ok _ h
    · intro o s h
      simp only [expression]
      exact seq_plain (H.andarg _ _ h) H.exptail

theorem parse_plain (ci : Bool) (s : List Char) (e : Ex) (r : List Char) (h : parse ci s = .ok (rpn e, r)) : PlainEx e :=
  (plains ci _).expression [] s pt_nil (rpn e, r) h

end Gnucap.Expr
