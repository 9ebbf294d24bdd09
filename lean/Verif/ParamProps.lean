import Verif.ParamModel
import Verif.ReducePartial

/-!
# Lookup follows the scope chain, evaluation is that of the text, and what a failed evaluation leaves behind (C42)
-/
set_option linter.unusedSimpArgs false
namespace Gnucap.Param
open Gnucap.Expr Gnucap.Num

/-! ## lookup -/

theorem toLower_idem (c : Char) : c.toLower.toLower = c.toLower := by
  unfold Char.toLower
  split
  · rename_i h
    split
    · rename_i h2
      exfalso
      simp only [ge_iff_le, UInt32.le_iff_toNat_le] at h h2
      have e1 : ('A' : Char).val.toNat = 65 := rfl
      have e2 : ('Z' : Char).val.toNat = 90 := rfl
      have e3 : (c.val + ('a'.val - 'A'.val)).toNat = c.val.toNat + 32 := by
        have : ('a'.val - 'A'.val) = 32 := rfl
        rw [this, UInt32.toNat_add]
        have : (32 : UInt32).toNat = 32 := rfl
        omega
      omega
    · rfl
  · rfl

theorem fold_idem (ci : Bool) (s : List Char) : fold ci (fold ci s) = fold ci s := by
  unfold fold
  split
  · rw [List.map_map]
    congr 1
    funext c
    exact toLower_idem c
  · rfl

/-- the list gives the name (its spelling as the case option wants) the parameter `i`, and `i` has a value -/
def Gives (ci : Bool) (f : Frame) (s : List Char) (i : Inst) : Prop := f.find (fold ci s) = some i ∧ i.s ≠ []

theorem deepLookup_fold (ci : Bool) (ch : Chain) (s : List Char) : deepLookup ci ch (fold ci s) = deepLookup ci ch s := by
  induction ch with
  | nil => rfl
  | cons f rest ih => simp only [deepLookup, fold_idem]

/-- C42: a parameter is found in the innermost list that gives it a value -/
theorem deepLookup_spec (ci : Bool) (ch : Chain) (s : List Char) (i : Inst) :
    deepLookup ci ch s = some i ↔
      ∃ inner f outer, ch = inner ++ f :: outer ∧ Gives ci f s i ∧ ∀ g ∈ inner, ∀ j, ¬Gives ci g s j := by
  induction ch with
  | nil =>
    constructor
    · intro h; cases h
    · rintro ⟨inner, f, outer, h, _⟩
      cases inner <;> cases h
  | cons f rest ih =>
    have go : (∀ j, ¬Gives ci f s j) → (deepLookup ci (f :: rest) s = some i ↔
        ∃ inner g outer, f :: rest = inner ++ g :: outer ∧ Gives ci g s i ∧ ∀ h ∈ inner, ∀ j, ¬Gives ci h s j) := by
      intro hf
      have e : deepLookup ci (f :: rest) s = deepLookup ci rest s := by
        simp only [deepLookup]
        rw [deepLookup_fold]
        cases hfi : f.find (fold ci s) with
        | none => rfl
        | some j =>
          simp only
          rw [if_neg]
          intro hh
          exact hf j ⟨hfi, by simpa [Inst.hard] using hh⟩
      rw [e, ih]
      constructor
      · rintro ⟨inner, g, outer, rfl, hg, hi⟩
        refine ⟨f :: inner, g, outer, rfl, hg, ?_⟩
        intro h hh
        rcases List.mem_cons.1 hh with rfl | hh
        · exact hf
        · exact hi h hh
      · rintro ⟨inner, g, outer, h, hg, hi⟩
        cases inner with
        | nil =>
          cases h
          exact absurd hg (hf i)
        | cons x inner =>
          cases h
          exact ⟨inner, g, outer, rfl, hg, fun h hh => hi h (List.mem_cons_of_mem _ hh)⟩
    by_cases hf : ∃ j, Gives ci f s j
    · obtain ⟨j, hj1, hj2⟩ := hf
      have e : deepLookup ci (f :: rest) s = some j := by
        simp only [deepLookup, hj1]
        rw [if_pos (by simpa [Inst.hard] using hj2)]
      rw [e]
      constructor
      · intro h
        cases h
        exact ⟨[], f, rest, rfl, ⟨hj1, hj2⟩, by simp⟩
      · rintro ⟨inner, g, outer, h, hg, hi⟩
        cases inner with
        | nil =>
          cases h
          rw [← hj1]
          exact hg.1
        | cons x inner =>
          cases h
          exact absurd ⟨hj1, hj2⟩ (hi f (by simp) j)
    · exact go (fun j hj => hf ⟨j, hj⟩)

/-- C42: and it is not found exactly if no list gives it a value -/
theorem deepLookup_none (ci : Bool) (ch : Chain) (s : List Char) :
    deepLookup ci ch s = none ↔ ∀ f ∈ ch, ∀ i, ¬Gives ci f s i := by
  induction ch with
  | nil => simp [deepLookup]
  | cons f rest ih =>
    simp only [deepLookup, deepLookup_fold, List.mem_cons, forall_eq_or_imp]
    cases hfi : f.find (fold ci s) with
    | none =>
      simp only
      rw [ih]
      constructor
      · intro h
        refine ⟨fun i hi => ?_, h⟩
        rw [Gives, hfi] at hi
        cases hi.1
      · exact fun h => h.2
    | some j =>
      simp only
      by_cases hj : j.s = []
      · rw [if_neg (by simp [Inst.hard, hj]), ih]
        constructor
        · intro h
          refine ⟨fun i hi => ?_, h⟩
          rw [Gives, hfi] at hi
          obtain ⟨h1, h2⟩ := hi
          cases h1
          exact h2 hj
        · exact fun h => h.2
      · rw [if_pos (by simp [Inst.hard, hj])]
        constructor
        · intro h; cases h
        · intro h
          exact absurd ⟨hfi, hj⟩ (h.1 j)

/-- a chain of three: the middle list has the name without a value, so the outer one counts -/
example : deepLookup true [[(['a'], ⟨.any, ['1'], none⟩)], [(['x'], ⟨.flt, [], none⟩)], [(['x'], ⟨.int, ['2'], none⟩)]] ['X'] =
    some ⟨.int, ['2'], none⟩ := by rfl

/-! ## setting -/

theorem find_put (f : Frame) (s t : List Char) (i : Inst) : (f.put s i).find t = if t = s then some i else f.find t := by
  unfold Frame.find Frame.put
  by_cases h : t = s
  · subst h; simp
  · rw [if_neg h]
    have h1 : (s == t) = false := by simpa using fun e => h e.symm
    rw [List.find?_cons]
    simp only [h1]
    congr 1
    induction f with
    | nil => rfl
    | cons p f ih =>
      by_cases hp : p.1 = s
      · have : (p.1 != s) = false := by simp [hp]
        rw [List.filter_cons_of_neg (by simp [this]), ih, List.find?_cons]
        have : (p.1 == t) = false := by rw [hp]; exact h1
        rw [this]
      · have : (p.1 != s) = true := by simp [hp]
        rw [List.filter_cons_of_pos (by simpa using hp), List.find?_cons, List.find?_cons, ih]

/-- C42: setting a parameter in the innermost list shadows it there for every spelling that is the same name, changes no other name; a text
that unsets it lets the outer lists be seen again -/
theorem setParam_lookup (E : Env) (f : Frame) (rest : Chain) (name s t : List Char) :
    deepLookup E.ci (setParam E f name s :: rest) t =
      if fold E.ci t = fold E.ci name then
        if (setText E ((f.find (fold E.ci name)).getD Inst.empty) s).s = [] then deepLookup E.ci rest t
        else some (setText E ((f.find (fold E.ci name)).getD Inst.empty) s)
      else deepLookup E.ci (f :: rest) t := by
  simp only [deepLookup, setParam, find_put, deepLookup_fold]
  by_cases h : fold E.ci t = fold E.ci name
  · simp only [h, if_true]
    by_cases h2 : (setText E ((f.find (fold E.ci name)).getD Inst.empty) s).s = []
    · rw [if_pos h2, if_neg (by simp [Inst.hard, h2])]
    · rw [if_neg h2, if_pos (by simpa [Inst.hard] using h2)]
  · simp only [h, if_false]

/-- the text that is set is the text given, for one that is not empty, `NA` or quoted; the type is kept -/
theorem setText_plain (E : Env) (i : Inst) (s : List Char) (h1 : s ≠ []) (h2 : s ≠ ['N', 'A'])
    (h3 : ∀ c ∈ s.head?, c ≠ '\'' ∧ c ≠ '"' ∧ c ≠ '{') : (setText E i s).s = s ∧ (setText E i s).ty = i.ty := by
  unfold setText
  split
  · exact ⟨rfl, rfl⟩
  · rw [if_neg (by simp [h1, h2]), if_neg]
    · exact ⟨rfl, rfl⟩
    · cases s with
      | nil => exact absurd rfl h1
      | cons c r =>
        obtain ⟨a, b, d⟩ := h3 c (by simp)
        simp [a, b, d]

example : (['2', '*', 'y'] : List Char) ≠ [] ∧ (['2', '*', 'y'] : List Char) ≠ ['N', 'A'] ∧
    ∀ c ∈ (['2', '*', 'y'] : List Char).head?, c ≠ '\'' ∧ c ≠ '"' ∧ c ≠ '{' := by decide

/-! ## evaluating -/

theorem eVal_succ (E : Env) (ch : Chain) (k : ℕ) (i : Inst) (d : Option Base.Val) :
    eVal E ch (k + 1) i d = eBody E ch k i d (eVal E ch k ((deepLookup E.ci ch i.s).getD Inst.empty) none) := rfl

theorem solve_value (E : Env) (ch : Chain) (ty : Ty) (s : List Char) (e : Ex) (r : List Char) (n : ℕ) (w v : Base.Val)
    (hp : parse E.ci s = .ok (rpn e, r)) (hd : Den (ctx E ch) n e w) (hn : n < E.levels) (ha : assign ty w = .val v) :
    solve E ch ty s = .val v := by
  obtain ⟨m, hm⟩ : ∃ m, E.levels = m + 1 := ⟨E.levels - 1, by omega⟩
  have := reduce_complete (ctx E ch) m e w (den_le _ n m e w (by omega) hd)
  simp only [solve, hp, hm, this, value, ha]

/-- C42: a parameter has the value of its text in the scope, converted to its type, whatever was evaluated before (as long as a level is
left), and the counter is as before -/
theorem eVal_text (E : Env) (ch : Chain) (k : ℕ) (i : Inst) (d : Option Base.Val) (e : Ex) (r : List Char) (n : ℕ) (w v : Base.Val)
    (h1 : i.s ≠ []) (h2 : i.s ≠ ['#']) (hp : parse E.ci i.s = .ok (rpn e, r)) (hd : Den (ctx E ch) n e w) (hn : n < E.levels)
    (ha : assign i.ty w = .val v) : eVal E ch (k + 1) i d = (k + 1, .val v) := by
  rw [eVal_succ, eBody.eq_def, if_neg h1, if_neg h2, solve_value E ch i.ty i.s e r n w v hp hd hn ha]

/-- C42: a fixed parameter has its value, one without a text the default -/
theorem eVal_fixed (E : Env) (ch : Chain) (k : ℕ) (i : Inst) (d : Option Base.Val) (v : Base.Val) (h : i.s = ['#']) (hv : i.v = some v) :
    eVal E ch (k + 1) i d = (k + 1, .val v) := by
  rw [eVal_succ, eBody.eq_def, if_neg (by simp [h]), if_pos h]
  simp only [hv]

theorem eVal_default (E : Env) (ch : Chain) (k : ℕ) (i : Inst) (d : Base.Val) (h : i.s = []) (hd : castable i.ty d = true) :
    eVal E ch (k + 1) i (some d) = (k + 1, .val (slice i.ty d)) := by
  rw [eVal_succ, eBody.eq_def, if_pos h, if_neg]
  · simp only [ofDef, hd, if_true]
  · intro ha; rw [ha] at hd; cases d <;> cases hd

/-- the text is a name -/
def IsName (E : Env) (s : List Char) : Prop :=
  s ≠ [] ∧ s ≠ ['#'] ∧ isNumber s = false ∧ s.head? ≠ some '"' ∧ ∃ r, parse E.ci s = .ok ([.sym s], r)

/-- C42: a parameter whose text is a name that no list gives a value has the default -/
theorem eVal_unknown (E : Env) (ch : Chain) (k : ℕ) (i : Inst) (d : Base.Val) (hl : 0 < E.levels) (hs : IsName E i.s)
    (hn : ∀ f ∈ ch, ∀ j, ¬Gives E.ci f i.s j) (hd : castable i.ty d = true) :
    eVal E ch (k + 2) i (some d) = (k + 2, .val (slice i.ty d)) := by
  obtain ⟨h1, h2, h3, h4, r, hp⟩ := hs
  have hnone := (deepLookup_none E.ci ch i.s).2 hn
  obtain ⟨m, hm⟩ : ∃ m, E.levels = m + 1 := ⟨E.levels - 1, by omega⟩
  have hr : reduce (ctx E ch) E.levels [.sym i.s] = .ok [.sym i.s] := by
    have := reduce_rpn (ctx E ch) E.levels (.name i.s)
    rw [rpn] at this
    rw [this, hm, redN, red_name, symRed_name _ _ _ h3 h4]
    simp only [nameRed, ctx, hnone, Option.map, RRes.bind, rpn]
  have hsolve : solve E ch i.ty i.s = .null := by
    simp only [solve, hp, hr, value]
  have hany : i.ty ≠ .any := by intro ha; rw [ha] at hd; cases d <;> cases hd
  rw [eVal_succ, eBody.eq_def, if_neg h1, if_neg h2, hsolve]
  simp only [hnone, Option.getD, Inst.empty]
  rw [eVal_succ, eBody.eq_def, if_pos rfl, if_pos rfl]
  simp only [back, fallback, hany, if_false, ofDef, hd, if_true]

/-! ## the counter -/

/-- C42: an evaluation that does not throw leaves the counter as it was -/
theorem eVal_counter (E : Env) (ch : Chain) : ∀ (k : ℕ) (i : Inst) (d : Option Base.Val),
    (eVal E ch k i d).2 ≠ .throw → (eVal E ch k i d).1 = k := by
  intro k
  induction k with
  | zero => intro i d h; exact absurd rfl h
  | succ k ih =>
    intro i d h
    rw [eVal_succ, eBody.eq_def] at h ⊢
    split
    · rfl
    · rename_i h1
      rw [if_neg h1] at h
      split
      · rfl
      · rename_i h2
        rw [if_neg h2] at h
        cases hs : solve E ch i.ty i.s with
        | null =>
          rw [hs] at h
          simp only at h ⊢
          have := ih ((deepLookup E.ci ch i.s).getD Inst.empty) none
          revert this h
          cases eVal E ch k ((deepLookup E.ci ch i.s).getD Inst.empty) none with
          | mk k' r =>
            cases r with
            | throw => intro h; exact absurd rfl h
            | _ => intro _ h2; simp only [back] at h2 ⊢; rw [h2 (by simp)]
        | throw => rw [hs] at h; exact absurd rfl h
        | _ => rfl

/-- with more levels left the outcome of an evaluation that does not throw is the same -/
theorem eVal_more (E : Env) (ch : Chain) : ∀ (k : ℕ) (i : Inst) (d : Option Base.Val) (r : ERes), eVal E ch k i d = (k, r) →
    r ≠ .throw → ∀ m, eVal E ch (k + m) i d = (k + m, r) := by
  intro k
  induction k with
  | zero => intro i d r h hr; exact absurd (Prod.mk.inj h).2.symm hr
  | succ k ih =>
    intro i d r h hr m
    rw [show k + 1 + m = (k + m) + 1 from by omega]
    rw [eVal_succ, eBody.eq_def] at h ⊢
    split at h
    · rename_i h1
      rw [if_pos h1]
      cases h; rfl
    · rename_i h1
      rw [if_neg h1]
      split at h
      · rename_i h2
        rw [if_pos h2]
        cases h; rfl
      · rename_i h2
        rw [if_neg h2]
        cases hs : solve E ch i.ty i.s with
        | null =>
          rw [hs] at h
          simp only at h ⊢
          have hc := eVal_counter E ch k ((deepLookup E.ci ch i.s).getD Inst.empty) none
          have ih' := ih ((deepLookup E.ci ch i.s).getD Inst.empty) none
          revert h hc ih'
          cases eVal E ch k ((deepLookup E.ci ch i.s).getD Inst.empty) none with
          | mk k' r' =>
            intro h hc ih'
            cases r' with
            | throw => cases h; exact absurd rfl hr
            | _ =>
              simp only [back] at h hc
              have hk := hc (by simp)
              subst hk
              rw [ih' _ rfl (by simp) m]
              simp only [back]
              rw [(Prod.mk.inj h).2]
        | throw => rw [hs] at h; exact absurd (Prod.mk.inj h).2.symm hr
        | _ => rw [hs] at h; cases h; rfl

/-- the counter after a list of evaluations, whose exceptions are caught -/
def after (E : Env) (ch : Chain) (k : ℕ) (l : List Inst) : ℕ := l.foldl (fun k i => (eVal E ch k i none).1) k

/-- C42, as far as it holds: evaluations that succeed do not disturb later ones -/
theorem after_good_partial (E : Env) (ch : Chain) (k : ℕ) (l : List Inst) (h : ∀ i ∈ l, (eVal E ch k i none).2 ≠ .throw) :
    after E ch k l = k := by
  induction l with
  | nil => rfl
  | cons i l ih =>
    have h1 := eVal_counter E ch k i none (h i (by simp))
    simp only [after, List.foldl_cons] at ih ⊢
    rw [h1]
    exact ih (fun j hj => h j (by simp [hj]))

/-- a parameter whose text cannot be read, or is defined through itself -/
def Bad (E : Env) (ch : Chain) (i : Inst) : Prop := i.s ≠ [] ∧ i.s ≠ ['#'] ∧ solve E ch i.ty i.s = .throw

theorem eVal_bad (E : Env) (ch : Chain) (k : ℕ) (i : Inst) (d : Option Base.Val) (h : Bad E ch i) : eVal E ch (k + 1) i d = (k, .throw) := by
  obtain ⟨h1, h2, h3⟩ := h
  rw [eVal_succ, eBody.eq_def, if_neg h1, if_neg h2, h3]

theorem after_bad (E : Env) (ch : Chain) (i : Inst) (h : Bad E ch i) (k n : ℕ) : after E ch (k + n) (List.replicate n i) = k := by
  induction n with
  | zero => rfl
  | succ n ih =>
    simp only [after, List.replicate_succ, List.foldl_cons] at ih ⊢
    rw [show k + (n + 1) = (k + n) + 1 from by omega, eVal_bad E ch _ i none h]
    exact ih

/-- The last part of C42 is false: each failed evaluation leaves the counter one higher, and when as many have failed as levels are allowed
(20), the next evaluation fails whatever it evaluates. -/
theorem failures_break_next (E : Env) (ch : Chain) (bad : Inst) (h : Bad E ch bad) (i : Inst) (d : Option Base.Val) :
    eVal E ch (after E ch E.levels (List.replicate E.levels bad)) i d = (E.levels, .throw) := by
  have := after_bad E ch bad h 0 E.levels
  rw [Nat.zero_add] at this
  rw [this]
  rfl

/-! ## definitions that go in a circle -/

mutual
/-- the value of the name is needed for the value of the expression -/
def needs (s : List Char) : Ex → Prop
  | .name t => t = s
  | .const _ => False
  | .call _ a => needsArgs s a
  | .arr a => needsArgs s a
  | .un _ e => needs s e
  | .bin _ a b => needs s a ∨ needs s b
  | .tern e _ _ => needs s e

def needsArgs (s : List Char) : Args → Prop
  | .nil => False
  | .cons e r => needs s e ∨ needsArgs s r
end

mutual
theorem red_needs (c : Ctx) (nest : Ex → RRes Ex) (s : List Char) (hs : ∀ e', symRed c nest s ≠ .ok e') :
    ∀ (e : Ex), needs s e → ∀ e', red c nest e ≠ .ok e'
  | .name t, h, e', hr => by
    rw [needs] at h
    subst h
    rw [red_name] at hr
    exact hs e' hr
  | .const v, h, e', hr => by rw [needs] at h; exact h
  | .call f a, h, e', hr => by
    rw [needs] at h
    rw [red_call] at hr
    obtain ⟨a', ha, _⟩ := RRes.bind_ok hr
    exact redArgs_needs c nest s hs a h a' ha
  | .arr a, h, e', hr => by
    rw [needs] at h
    rw [red_arr] at hr
    obtain ⟨a', ha, _⟩ := RRes.bind_ok hr
    exact redArgs_needs c nest s hs a h a' ha
  | .un op e, h, e', hr => by
    rw [needs] at h
    rw [red_un] at hr
    obtain ⟨a', ha, _⟩ := RRes.bind_ok hr
    exact red_needs c nest s hs e h a' ha
  | .bin op a b, h, e', hr => by
    rw [needs] at h
    rw [red_bin] at hr
    obtain ⟨a', ha, hr⟩ := RRes.bind_ok hr
    obtain ⟨b', hb, _⟩ := RRes.bind_ok hr
    rcases h with h | h
    · exact red_needs c nest s hs a h a' ha
    · exact red_needs c nest s hs b h b' hb
  | .tern e t f, h, e', hr => by
    rw [needs] at h
    rw [red_tern] at hr
    obtain ⟨a', ha, _⟩ := RRes.bind_ok hr
    exact red_needs c nest s hs e h a' ha

theorem redArgs_needs (c : Ctx) (nest : Ex → RRes Ex) (s : List Char) (hs : ∀ e', symRed c nest s ≠ .ok e') :
    ∀ (a : Args), needsArgs s a → ∀ a', redArgs c nest a ≠ .ok a'
  | .nil, h, a', hr => by rw [needsArgs] at h; exact h
  | .cons e r, h, a', hr => by
    rw [needsArgs] at h
    rw [redArgs_cons] at hr
    obtain ⟨e1, he, hr⟩ := RRes.bind_ok hr
    obtain ⟨r1, hr1, _⟩ := RRes.bind_ok hr
    rcases h with h | h
    · exact red_needs c nest s hs e h e1 he
    · exact redArgs_needs c nest s hs r h r1 hr1
end

/-- the names `S` are defined through each other: each has a text that needs one of them -/
def Circle (c : Ctx) (S : Set (List Char)) : Prop :=
  ∀ s ∈ S, isNumber s = false ∧ s.head? ≠ some '"' ∧
    ∃ p e r, c.par s = some p ∧ parse c.ci p.text = .ok (rpn e, r) ∧ ∃ t ∈ S, needs t e

/-- C42: an expression that needs a name of a circle of definitions is not given a value or a reduced form, whatever the number of levels;
the evaluation ends (in an exception, unless something else in the expressions is undefined behaviour before) -/
theorem circle_no_result (c : Ctx) (S : Set (List Char)) (hc : Circle c S) (n : ℕ) :
    ∀ (e : Ex), (∃ s ∈ S, needs s e) → ∀ l, reduce c n (rpn e) ≠ .ok l := by
  have key : ∀ n e, (∃ s ∈ S, needs s e) → ∀ e', redN c n e ≠ .ok e' := by
    intro n
    induction n with
    | zero => intro e _ e' h; cases h
    | succ n ih =>
      rintro e ⟨s, hs, hn⟩ e'
      refine red_needs c _ s ?_ e hn e'
      intro e1 h1
      obtain ⟨h2, h3, p, e0, r, hp, hpp, t, ht, htn⟩ := hc s hs
      rw [symRed_name c _ s h2 h3] at h1
      simp only [nameRed, hp, hpp] at h1
      rw [dec_rpn e0 [] trivial] at h1
      simp only at h1
      obtain ⟨e2, he2, _⟩ := RRes.bind_ok h1
      exact ih e0 ⟨t, ht, htn⟩ e2 he2
  intro e h l hl
  rw [reduce_rpn] at hl
  obtain ⟨e', he, _⟩ := RRes.bind_ok hl
  exact key n e h e' he

/-- C42: so a parameter of a circle has no value -/
theorem circle_no_value (E : Env) (ch : Chain) (S : Set (List Char)) (hc : Circle (ctx E ch) S) (k : ℕ) (i : Inst) (d : Option Base.Val)
    (e : Ex) (r : List Char) (h1 : i.s ≠ []) (h2 : i.s ≠ ['#']) (hp : parse E.ci i.s = .ok (rpn e, r)) (hs : ∃ s ∈ S, needs s e)
    (v : Base.Val) : (eVal E ch k i d).2 ≠ .val v := by
  have hn := circle_no_result (ctx E ch) S hc E.levels e hs
  cases k with
  | zero => intro h; cases h
  | succ k =>
    rw [eVal_succ, eBody.eq_def, if_neg h1, if_neg h2]
    have : solve E ch i.ty i.s = .throw ∨ solve E ch i.ty i.s = .ub ∨ solve E ch i.ty i.s = .special := by
      simp only [solve, hp]
      cases hr : reduce (ctx E ch) E.levels (rpn e) with
      | ok l => exact absurd hr (hn l)
      | err => exact Or.inl rfl
      | ub => exact Or.inr (Or.inl rfl)
      | special => exact Or.inr (Or.inr rfl)
    rcases this with h | h | h <;> rw [h] <;> simp

/-! ## copying the arguments of a subcircuit -/

/-- the prototype with the value, if there is one -/
def given (pi : Inst) : ERes → Option Inst
  | .val v => setFixed pi v
  | _ => some pi

/-- the parameter in the copy -/
def copied (E : Env) (scope again : Chain) (k : ℕ) (name : List Char) (i : Inst) : Option Inst :=
  if i.hard then given (proto again name) (eVal E scope k i none).2 else none

theorem find_cons (name s : List Char) (i : Inst) (f : Frame) :
    Frame.find ((name, i) :: f) s = if name = s then some i else f.find s := by
  unfold Frame.find
  rw [List.find?_cons]
  by_cases h : name = s
  · simp [h]
  · have : (name == s) = false := by simpa using h
    simp only [this, h, if_false]

theorem find_none (f : Frame) (s : List Char) (h : s ∉ List.map (·.1) f) : f.find s = none := by
  unfold Frame.find
  rw [List.find?_eq_none.2]
  · rfl
  · intro x hx hxs
    exact h (List.mem_map.2 ⟨x, hx, by simpa using hxs⟩)

theorem addTo_ok (name : List Char) (i : Inst) (x : ℕ × CRes) (k : ℕ) (f : Frame) (h : addTo name i x = (k, .ok f)) :
    ∃ f0, x = (k, .ok f0) ∧ f = (name, i) :: f0 := by
  obtain ⟨k0, r⟩ := x
  cases r with
  | ok f0 => simp only [addTo] at h; cases h; exact ⟨f0, rfl, rfl⟩
  | throw => cases h
  | bad => cases h

/-- C42: the copy has the parameters of the list that have a value, each evaluated in the given scope (not in the copy, and not depending on
the order), in the type of the prototype; the counter is as before -/
theorem evalCopy_find (E : Env) (scope again : Chain) (p : Frame) : ∀ (k k' : ℕ) (f : Frame), evalCopy E scope again k p = (k', .ok f) →
    (List.map (·.1) p).Nodup → k' = k ∧ ∀ name, f.find name = (p.find name).bind (copied E scope again k name) := by
  induction p with
  | nil =>
    intro k k' f h _
    cases h
    exact ⟨rfl, fun name => rfl⟩
  | cons x rest ih =>
    obtain ⟨nm, i⟩ := x
    intro k k' f h hnd
    simp only [List.map_cons, List.nodup_cons] at hnd
    obtain ⟨hnot, hnd⟩ := hnd
    have step : ∀ (pi : Inst) (k1 : ℕ), (eVal E scope k i none).1 = k1 → (eVal E scope k i none).2 ≠ .throw → i.hard = true →
        copied E scope again k nm i = some pi → addTo nm pi (evalCopy E scope again k1 rest) = (k', .ok f) →
        k' = k ∧ ∀ name, f.find name = (Frame.find ((nm, i) :: rest) name).bind (copied E scope again k name) := by
      clear h
      intro pi k1 hk1 hth hhard hcop h
      have hk := eVal_counter E scope k i none hth
      rw [hk1] at hk
      subst hk
      obtain ⟨f0, h0, rfl⟩ := addTo_ok nm pi _ _ _ h
      obtain ⟨h1, h2⟩ := ih k1 k' f0 h0 hnd
      refine ⟨h1, ?_⟩
      intro name
      rw [find_cons, find_cons]
      split
      · rename_i hn
        subst hn
        simp only [Option.bind_some, hcop]
      · exact h2 name
    simp only [evalCopy] at h
    split at h
    · rename_i hhard
      cases hev : eVal E scope k i none with
      | mk k1 r =>
        rw [hev] at h
        have hcopy : copied E scope again k nm i = given (proto again nm) r := by
          unfold copied
          rw [if_pos hhard, hev]
        cases r with
        | throw => cases h
        | ub => cases h
        | special => cases h
        | val v =>
          simp only [given] at h hcopy
          cases hsf : setFixed (proto again nm) v with
          | none => rw [hsf] at h; cases h
          | some pi =>
            rw [hsf] at h hcopy
            exact step pi k1 (by rw [hev]) (by rw [hev]; simp) hhard hcopy h
        | na t => exact step _ k1 (by rw [hev]) (by rw [hev]; simp) hhard hcopy h
        | null => exact step _ k1 (by rw [hev]) (by rw [hev]; simp) hhard hcopy h
    · rename_i hhard
      obtain ⟨h1, h2⟩ := ih k k' f h hnd
      refine ⟨h1, ?_⟩
      intro name
      rw [h2 name, find_cons]
      split
      · rename_i hn
        subst hn
        rw [find_none rest nm hnot]
        simp only [Option.bind_none, Option.bind_some, copied, hhard, Bool.false_eq_true, if_false]
      · rfl

/-- C42: seen from inside, an argument that has a value outside is fixed to that value, in the type of the prototype -/
theorem evalCopy_arg (E : Env) (scope again : Chain) (p : Frame) (k k' : ℕ) (f : Frame) (h : evalCopy E scope again (k + 1) p = (k', .ok f))
    (hnd : (List.map (·.1) p).Nodup) (name : List Char) (i : Inst) (hi : p.find (fold E.ci name) = some i) (h1 : i.s ≠ [])
    (h2 : i.s ≠ ['#']) (e : Ex) (r : List Char) (hp : parse E.ci i.s = .ok (rpn e, r)) (n : ℕ) (w v u : Base.Val)
    (hd : Den (ctx E scope) n e w) (hn : n < E.levels) (ha : assign i.ty w = .val v) (ht : (proto again (fold E.ci name)).ty ≠ .any)
    (hu : assign (proto again (fold E.ci name)).ty v = .val u) :
    deepLookup E.ci (f :: again) name = some ⟨(proto again (fold E.ci name)).ty, ['#'], some u⟩ := by
  obtain ⟨_, hf⟩ := evalCopy_find E scope again p (k + 1) k' f h hnd
  have hf := hf (fold E.ci name)
  have hev := eVal_text E scope k i none e r n w v h1 h2 hp hd hn ha
  have hhard : i.hard = true := by simpa [Inst.hard] using h1
  have hsf : setFixed (proto again (fold E.ci name)) v = some ⟨(proto again (fold E.ci name)).ty, ['#'], some u⟩ := by
    unfold setFixed
    revert ht hu
    cases (proto again (fold E.ci name)).ty with
    | any => intro ht; exact absurd rfl ht
    | _ => intro _ hu; simp only [hu]
  rw [hi] at hf
  simp only [Option.bind_some, copied, hhard, if_true, hev, given, hsf] at hf
  simp only [deepLookup, hf]
  rw [if_pos (by simp [Inst.hard])]

/-- C42: so an expression inside that uses the argument sees that value, if the text it is printed as is read back as the value; whatever
else is defined inside -/
theorem evalCopy_den (E : Env) (scope again : Chain) (p : Frame) (k k' : ℕ) (f : Frame) (h : evalCopy E scope again (k + 1) p = (k', .ok f))
    (hnd : (List.map (·.1) p).Nodup) (name : List Char) (hname : isNumber name = false ∧ name.head? ≠ some '"') (i : Inst)
    (hi : p.find (fold E.ci name) = some i) (h1 : i.s ≠ [])
    (h2 : i.s ≠ ['#']) (e : Ex) (r : List Char) (hp : parse E.ci i.s = .ok (rpn e, r)) (n : ℕ) (w v u : Base.Val)
    (hd : Den (ctx E scope) n e w) (hn : n < E.levels) (ha : assign i.ty w = .val v) (ht : (proto again (fold E.ci name)).ty ≠ .any)
    (hu : assign (proto again (fold E.ci name)).ty v = .val u) (e' : Ex) (r' : List Char) (x : Base.Val)
    (hx : parse E.ci (E.text u) = .ok (rpn e', r')) (hdx : Den (ctx E (f :: again)) 0 e' x)
    (hax : assign (proto again (fold E.ci name)).ty x = .val u) : Den (ctx E (f :: again)) 1 (.name name) u := by
  have hl := evalCopy_arg E scope again p k k' f h hnd name i hi h1 h2 e r hp n w v u hd hn ha ht hu
  refine .par 0 name ⟨E.text u, (proto again (fold E.ci name)).ty⟩ e' r' x u hname.1 hname.2 ?_ hx hdx hax
  simp only [ctx, hl, Option.map, Inst.string]
  simp only [ne_eq, ht, not_false_eq_true, and_self, if_true]

/-- C42: an argument that is not given is looked up further, in the prototype and out -/
theorem evalCopy_not_given (E : Env) (scope again : Chain) (p : Frame) (k k' : ℕ) (f : Frame)
    (h : evalCopy E scope again k p = (k', .ok f)) (hnd : (List.map (·.1) p).Nodup) (name : List Char)
    (hn : ∀ i, ¬Gives E.ci p name i) : deepLookup E.ci (f :: again) name = deepLookup E.ci again name := by
  obtain ⟨_, hf⟩ := evalCopy_find E scope again p k k' f h hnd
  have hf := hf (fold E.ci name)
  have : f.find (fold E.ci name) = none := by
    rw [hf]
    cases hp : p.find (fold E.ci name) with
    | none => rfl
    | some i =>
      have : i.s = [] := by
        by_contra hs
        exact hn i ⟨hp, hs⟩
      simp only [Option.bind_some, copied, Inst.hard, this]
      rfl
  simp only [deepLookup, this, deepLookup_fold]

end Gnucap.Param
