import Verif.ParamProps

/-!
# Examples for the theorems about parameters, and where C42 fails
-/
namespace Gnucap.Param
open Gnucap.Expr Gnucap.Num

/-- 20 levels as `OPT::recursion`; only the number 7 is ever printed here -/
def E0 : Env where
  verilog := false
  ci := true
  units := .si
  fn := fun _ => none
  levels := 20
  text := fun v => if v = .flt 7 then ['7', '.'] else ['N', 'A']
  strip := id

/-- the global parameters: `y` 3.5 -/
def outer : Frame := [(['y'], ⟨.flt, ['3', '.', '5'], none⟩)]
/-- the arguments of a subcircuit: `x` is `y*2`, `s` not given; its prototype has defaults for both -/
def args : Frame := [(['x'], ⟨.any, ['y', '*', '2'], none⟩), (['s'], ⟨.any, [], none⟩)]
def prototype : Frame := [(['x'], ⟨.flt, ['1'], none⟩), (['s'], ⟨.int, ['x', '+', '1'], none⟩)]

/-- what `evalCopy` makes of them: `x` is 7 (of type `Float`) inside, `s` is looked up in the prototype -/
def inner : Frame := [(['x'], ⟨.flt, ['#'], some (.flt 7)⟩)]

theorem copy_example : evalCopy E0 [outer] [prototype] 20 args = (20, .ok inner) := by
  have h : eVal E0 [outer] 20 ⟨.any, ['y', '*', '2'], none⟩ none = (20, .val (.flt 7)) := by
    decide +kernel
  simp only [args, evalCopy, Inst.hard]
  rw [h]
  rfl

example : (List.map (·.1) args).Nodup := by decide
/-- inside, `s` is 8: the text `x+1` of the prototype with the argument `x` -/
example : (eVal E0 [inner, prototype] 20 ⟨.any, ['s'], none⟩ none) = (20, .val (.int 8)) := by decide +kernel
/-- the hypotheses of `evalCopy_arg` and `evalCopy_den`: `x` -/
example : deepLookup E0.ci (inner :: [prototype]) ['X'] = some ⟨.flt, ['#'], some (.flt 7)⟩ := by rfl
example : Den (ctx E0 [inner, prototype]) 1 (.name ['x']) (.flt 7) := by
  refine .par 0 ['x'] ⟨['7', '.'], .flt⟩ (.name ['7', '.']) [] (.flt 7) (.flt 7) (by decide +kernel) (by decide) (by with_unfolding_all rfl)
    (by with_unfolding_all rfl) (.num 0 _ _ (by decide +kernel) (by with_unfolding_all rfl)) rfl
/-- and of `evalCopy_not_given`: `s` -/
example : ∀ i, ¬Gives E0.ci args ['s'] i := by
  rintro i ⟨h1, h2⟩
  have : args.find (fold E0.ci ['s']) = some ⟨.any, [], none⟩ := rfl
  rw [this] at h1
  cases h1
  exact h2 rfl

/-- `a` is `b+1` and `b` is `a*2` -/
def round : Frame := [(['a'], ⟨.any, ['b', '+', '1'], none⟩), (['b'], ⟨.flt, ['a', '*', '2'], none⟩)]

theorem round_circle : Circle (ctx E0 [round]) {['a'], ['b']} := by
  rintro s (rfl | rfl)
  · refine ⟨by decide +kernel, by decide, ⟨['b', '+', '1'], .any⟩, .bin ['+'] (.name ['b']) (.name ['1']), [], rfl,
      by with_unfolding_all rfl, ['b'], Or.inr rfl, ?_⟩
    simp [needs]
  · refine ⟨by decide +kernel, by decide, ⟨['a', '*', '2'], .flt⟩, .bin ['*'] (.name ['a']) (.name ['2']), [], rfl,
      by with_unfolding_all rfl, ['a'], Or.inl rfl, ?_⟩
    simp [needs]

/-- evaluating `a` throws -/
theorem round_bad : Bad E0 [round] ⟨.any, ['a'], none⟩ := by
  refine ⟨by decide, by decide, ?_⟩
  decide +kernel

example : IsName E0 ['z', 'z'] := ⟨by decide, by decide, by decide +kernel, by decide, [], by with_unfolding_all rfl⟩

/-! ## defects -/

/-- After 20 evaluations of `a` above have failed (each reported as "recursion too deep"), evaluating the number 1 fails in the same way;
without them it is 1. -/
theorem recursion_leak_wrong :
    eVal E0 [round] 20 ⟨.any, ['1'], none⟩ none = (20, .val (.int 1)) ∧
      eVal E0 [round] (after E0 [round] 20 (List.replicate 20 ⟨.any, ['a'], none⟩)) ⟨.any, ['1'], none⟩ none = (20, .throw) :=
  ⟨by decide +kernel, failures_break_next E0 [round] _ round_bad _ _⟩

/-- A name found nowhere falls back to the default only if it is the text itself.  A parameter with the text `b` and the default 3, where
`b` is a parameter with the text `zz` that is found nowhere, is NA instead of 3. -/
theorem nested_default_wrong :
    eVal E0 [[]] 20 ⟨.flt, ['z', 'z'], none⟩ (some (.flt 3)) = (20, .val (.flt 3)) ∧
      eVal E0 [[(['b'], ⟨.flt, ['z', 'z'], none⟩)]] 20 ⟨.flt, ['b'], none⟩ (some (.flt 3)) = (20, .na .flt) := by
  refine ⟨?_, ?_⟩ <;> decide +kernel

/-- A parameter of an outer list is evaluated with the names of the inner one: `a` is `y+1` outside where `y` is 1, but 6 inside a list
where `y` is 5. -/
theorem outer_text_sees_inner :
    eVal E0 [[(['a'], ⟨.any, ['y', '+', '1'], none⟩), (['y'], ⟨.any, ['1'], none⟩)]] 20 ⟨.any, ['a'], none⟩ none =
        (20, .val (.int 2)) ∧
      eVal E0 [[(['y'], ⟨.any, ['5'], none⟩)], [(['a'], ⟨.any, ['y', '+', '1'], none⟩), (['y'], ⟨.any, ['1'], none⟩)]] 20
        ⟨.any, ['a'], none⟩ none = (20, .val (.int 6)) := by
  refine ⟨?_, ?_⟩ <;> decide +kernel

/-- A string given to a parameter that has no type in the prototype is dropped (`incomplete()`): inside, the parameter has the text of the
prototype. -/
theorem string_argument_lost (again : Chain) (name : List Char) (s : List Char) (h : (proto again name).ty = .any) :
    setFixed (proto again name) (.vstr s) = some (proto again name) := by
  unfold setFixed
  rw [h]

example : (proto [[(['x'], ⟨.any, ['1'], none⟩)]] ['x']).ty = .any := rfl

/-- A Verilog integer given to a parameter without type is a plain integer inside. -/
theorem argument_class_lost (n : ℤ) (again : Chain) (name : List Char) (h : (proto again name).ty = .any) :
    setFixed (proto again name) (.vint n) = some ⟨.int, ['#'], some (.int n)⟩ := by
  unfold setFixed
  rw [h]

/-- Names set while case counts are not found when it no longer does. -/
theorem case_switch_wrong :
    (deepLookup false [setParam { E0 with ci := false } [] ['A'] ['1']] ['A']).isSome = true ∧
      (deepLookup true [setParam { E0 with ci := false } [] ['A'] ['1']] ['A']).isSome = false := by
  refine ⟨?_, ?_⟩ <;> decide +kernel

end Gnucap.Param
