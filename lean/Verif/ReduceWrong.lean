import Verif.ReducePartial

/-!
# Where reducing goes wrong, and examples for the theorems about it

`scope` builds a scope from lists of parameters (name, text, type) and functions.
-/
namespace Gnucap.Expr
open Gnucap.Scan Gnucap.Num

def scope (vl : Bool) (ps : List (String × String × Ty)) (fs : List (String × Fn)) : Ctx where
  verilog := vl
  ci := false
  units := .si
  par := fun s => (ps.find? fun p => p.1.toList == s).map fun p => ⟨p.2.1.toList, p.2.2⟩
  fn := fun s => (fs.find? fun p => p.1.toList == s).map fun p => p.2

/-- read a text and reduce it, as `PARAMETER<T>::lookup_solve` does -/
def solve (c : Ctx) (n : ℕ) (t : String) : RRes (List Tok) :=
  match parse c.ci t.toList with
  | .ok (pp, _) => reduce c n pp
  | _ => .err

/-- read a text, reduce it in one scope, and the result in another -/
def solve2 (c c' : Ctx) (n : ℕ) (t : String) : RRes (List Tok) := (solve c n t).bind (reduce c' n)

/-- is it the constant `v`? -/
def isConst (r : RRes (List Tok)) (v : Base.Val) : Bool :=
  match r with
  | .ok [.const w] => decide (w = v)
  | _ => false

def isUb : RRes (List Tok) → Bool
  | .ub => true
  | _ => false

theorem of_isConst (r : RRes (List Tok)) (v : Base.Val) (h : isConst r v = true) : r = .ok [.const v] := by
  unfold isConst at h
  split at h
  · rw [of_decide_eq_true h]
  · cases h

theorem of_isUb (r : RRes (List Tok)) (h : isUb r = true) : r = .ub := by
  cases r with
  | ub => rfl
  | _ => cases h

/-- the hypotheses of `reduce_completion_partial` and `reduce_twice_partial` can be met: `2+x+3`, `x` unknown at first, then `y*2` with `y` 4.5 -/
def c1 : Ctx := scope false [("z", "1", .int)] []
def q1 : List Char → Option Par := (scope false [("z", "1", .int), ("x", "y*2", .any), ("y", "4.5", .flt)] []).par

theorem c1_usual : Usual c1 q1 where
  verilog := rfl
  completes := by
    intro s p h
    simp only [c1, scope, List.find?, Option.map] at h
    simp only [q1, scope, List.find?]
    split at h
    · rename_i hz
      split at hz
      · rename_i hzz
        cases hz
        exact h
      · cases hz
    · cases h
  noVint := by
    intro s p h
    simp only [q1, scope, List.find?] at h
    repeat' split at h
    all_goals cases h
    all_goals (intro hc; cases hc)
  fns := by intro f d g w v h; cases h
  typed := by
    intro s p h
    refine Or.inr ⟨1, .int 1, ?_⟩
    simp only [c1, scope, List.find?, Option.map] at h
    split at h
    · rename_i hz
      split at hz
      · rename_i hzz
        have : s = ['z'] := by
          have := (beq_iff_eq.1 hzz).symm
          rw [this]; rfl
        subst this
        refine .par 0 ['z'] ⟨['1'], .int⟩ (.name ['1']) [] (.int 1) (.int 1) (by decide +kernel) (by decide) rfl ?_ ?_ rfl
        · with_unfolding_all rfl
        · exact .num 0 ['1'] (.int 1) (by decide +kernel) (by with_unfolding_all rfl)
      · cases hz
    · cases h

example : solve c1 20 "2+x+3" = .ok [.sym ['x'], .const (.int 5), .bin ['+']] := by with_unfolding_all rfl
example : solve (c1.with q1) 20 "2+x+3" = .ok [.const (.flt 14)] := by with_unfolding_all rfl
example : solve2 c1 (c1.with q1) 20 "2+x+3" = .ok [.const (.flt 14)] := by with_unfolding_all rfl
example : NoStringPar (c1.with q1) := by
  intro s p h
  simp only [Ctx.with, q1, scope, List.find?] at h
  repeat' split at h
  all_goals cases h
  all_goals (intro hc; cases hc)
example : noUn (.bin ['+'] (.name ['x']) (.const (.int 5))) := by simp [noUn]
/-- and those of `reduce_value`: a constant through two parameters, and no constant for an unknown name -/
example : reduce (c1.with q1) 3 [.sym ['x']] = .ok [.const (.flt 9)] := by with_unfolding_all rfl
example : reduce (c1.with q1) 3 [.sym ['w']] = .ok [.sym ['w']] := by with_unfolding_all rfl

/-! ## defects -/

/-- The sign of a name that is not known yet is lost: `Token_UNARY(const Token_UNARY&)` (m_expression.h:181) does not copy the name of
the operator.  Reducing `-x` in a scope without `x`, and the result in a scope where `x` is 5, dereferences a null pointer; in the second
scope `-x` is −5. -/
theorem unary_copy_wrong :
    solve (scope false [("x", "5", .any)] []) 20 "-x" = .ok [.const (.int (-5))] ∧
      solve (scope false [] []) 20 "-x" = .ok [.sym ['x'], .un []] ∧
      solve2 (scope false [] []) (scope false [("x", "5", .any)] []) 20 "-x" = .ub := by
  refine ⟨?_, ?_, ?_⟩ <;> with_unfolding_all rfl

/-- so does the sign of a whole expression, whatever it is -/
theorem unary_residual (c : Ctx) (n : ℕ) (op : List Char) (e e' : Ex) (h : redN c (n + 1) e = .ok e') (hc : ∀ v, e' ≠ .const v) :
    reduce c (n + 1) (rpn (.un op e)) = .ok (rpn (.un [] e')) := by
  rw [reduce_rpn]
  have : redN c (n + 1) (.un op e) = .ok (.un [] e') := by
    rw [redN] at h
    rw [redN, red_un, h]
    cases e' with
    | const v => exact absurd rfl (hc v)
    | _ => rfl
  rw [this]; rfl

example : ∀ v, (Ex.name ['x']) ≠ .const v := by intro v h; cases h

/-- Regrouping adds the constants first, which can overflow although the expression has a value: `x+2147483647+1` with `x` −5. -/
theorem regroup_overflow_wrong :
    solve (scope false [("x", "-5", .any)] []) 20 "x+2147483647+1" = .ok [.const (.int 2147483643)] ∧
      solve (scope false [] []) 20 "x+2147483647+1" = .ub := by
  refine ⟨of_isConst _ _ ?_, of_isUb _ ?_⟩ <;> decide +kernel

/-- In Verilog mode the swap of constant and name changes the class of the sum, and so the kind of a division: `7/(2+x)` with `x` 1 of
type `Integer` is 7/3; reduced first without `x`, then with it, it is 2. -/
theorem swap_class_wrong :
    solve (scope true [("x", "1", .int)] []) 20 "7/(2+x)" = .ok [.const (.flt (7 / 3))] ∧
      solve2 (scope true [] []) (scope true [("x", "1", .int)] []) 20 "7/(2+x)" = .ok [.const (.vint 2)] := by
  refine ⟨of_isConst _ _ ?_, of_isConst _ _ ?_⟩ <;> decide +kernel

/-- A parameter that has a type, but whose text is not known yet, is replaced by its text without conversion: `p` of type `Integer` with
the text `y` is 1 when `y` is 1.7; reduced first without `y`, then with it, it is 1.7. -/
theorem typed_partial_wrong :
    solve (scope false [("p", "y", .int), ("y", "1.7", .any)] []) 20 "p" = .ok [.const (.int 1)] ∧
      solve2 (scope false [("p", "y", .int)] []) (scope false [("p", "y", .int), ("y", "1.7", .any)] []) 20 "p" =
        .ok [.const (.flt (17 / 10))] := by
  refine ⟨?_, ?_⟩ <;> with_unfolding_all rfl

/-- A parameter of type string with a number as text is that number, not a string. -/
theorem string_parameter_wrong : solve (scope false [("p", "5", .vstr)] []) 20 "p" = .ok [.const (.int 5)] := by with_unfolding_all rfl

/-- An operator the reader accepts and the reducer does not know is a null dereference. -/
theorem unknown_operator_wrong : solve (scope false [] []) 20 "3\\4" = .ub := by with_unfolding_all rfl

/-- what is left of `abs` of a string: the call without its argument -/
def absLost : RRes (List Tok) → Bool
  | .ok [.stop _, .parlist, .sym s] => s == ['a', 'b', 's']
  | _ => false

/-- `abs` of a string loses its argument. -/
theorem abs_string_wrong : absLost (solve (scope false [] [("abs", .one true fun v => some v)]) 20 "abs(\"a\")") = true := by
  decide +kernel

/-- A parameter defined through itself is an error whatever the number of levels, never a loop or a value. -/
theorem self_reference (n : ℕ) (l : List Tok) : reduce (scope false [("x", "x+1", .any)] []) n (.sym ['x'] :: l) = .err := by
  induction n generalizing l with
  | zero => rfl
  | succ n ih =>
    have hp : parse false "x+1".toList = .ok ([.sym ['x'], .sym ['1'], .bin ['+']], []) := by with_unfolding_all rfl
    have h0 : (scope false [("x", "x+1", .any)] []).par ['x'] = some ⟨"x+1".toList, .any⟩ := rfl
    rw [reduce, stackList, stackOp, symStack, if_neg (by decide +kernel)]
    · simp only [nameStack, h0]
      rw [show (scope false [("x", "x+1", .any)] []).ci = false from rfl, hp]
      simp only [ih, RRes.bind]
    · intro st h; cases h
    · intro r h; cases h

end Gnucap.Expr
