import Verif.ReduceLemmas

/-!
# Reducing computes the value of an expression: it delivers a constant exactly when the expression has a value, and that constant is
the value

Specification: `Den c n e v`, "in the scope `c` the expression `e` has the value `v`, and no parameter is defined through more than `n`
others".  The value of a parameter is the value of its text, converted to its type.
-/
set_option linter.unusedSimpArgs false
namespace Gnucap.Expr
open Gnucap.Scan Gnucap.Num

mutual
inductive Den (c : Ctx) : ℕ → Ex → Base.Val → Prop
  | num (n : ℕ) (s : List Char) (v : Base.Val) (h : isNumber s = true) (hv : numConst c s = .ok v) : Den c n (.name s) v
  | quote (n : ℕ) (r d rest : List Char) (hq : quoted r = some (d, rest)) : Den c n (.name ('"' :: r)) (.vstr d)
  | par (n : ℕ) (s : List Char) (p : Par) (e : Ex) (r : List Char) (w v : Base.Val) (hs : isNumber s = false) (hq : s.head? ≠ some '"')
      (hp : c.par s = some p) (ht : parse c.ci p.text = .ok (rpn e, r)) (he : Den c n e w) (ha : assign p.ty w = .val v) :
      Den c (n + 1) (.name s) v
  | const (n : ℕ) (v : Base.Val) : Den c n (.const v) v
  | un (n : ℕ) (op : List Char) (o : Base.Uop) (e : Ex) (w v : Base.Val) (ho : uopOf op = some o) (he : Den c n e w)
      (hv : Base.unop o w = .val v) : Den c n (.un op e) v
  | bin (n : ℕ) (op : List Char) (o : Base.Op) (a b : Ex) (x y v : Base.Val) (ho : opOf op = some o) (ha : Den c n a x) (hb : Den c n b y)
      (hv : Base.binop o x y = .val v) : Den c n (.bin op a b) v
  | ternT (n : ℕ) (e t f : Ex) (w v : Base.Val) (he : Den c n e w) (hn : numeric w = true) (hb : Base.toBool w = true)
      (ht : Den c n t v) : Den c n (.tern e t f) v
  | ternF (n : ℕ) (e t f : Ex) (w v : Base.Val) (he : Den c n e w) (hn : numeric w = true) (hb : Base.toBool w = false)
      (hf : Den c n f v) : Den c n (.tern e t f) v
  | usual (n : ℕ) (f : List Char) (ev : List Base.Val → Option ℚ) (a : Args) (vs : List Base.Val) (q : ℚ)
      (hf : c.fn f = some (.usual ev)) (ha : DenArgs c n a vs) (hn : ∀ v ∈ vs, numeric v = true) (hq : ev vs = some q) :
      Den c n (.call f a) (.flt q)
  | one (n : ℕ) (f : List Char) (drops : Bool) (g : Base.Val → Option Base.Val) (e : Ex) (w v : Base.Val)
      (hf : c.fn f = some (.one drops g)) (he : Den c n e w) (hn : numeric w = true) (hg : g w = some v) :
      Den c n (.call f (.cons e .nil)) v

inductive DenArgs (c : Ctx) : ℕ → Args → List Base.Val → Prop
  | nil (n : ℕ) : DenArgs c n .nil []
  | cons (n : ℕ) (e : Ex) (a : Args) (v : Base.Val) (vs : List Base.Val) (he : Den c n e v) (ha : DenArgs c n a vs) :
      DenArgs c n (.cons e a) (v :: vs)
end

/-! ## an expression with a value reduces to the constant -/

def constArgs : List Base.Val → Args
  | [] => .nil
  | v :: l => .cons (.const v) (constArgs l)

theorem allNum_const (vs : List Base.Val) (h : ∀ v ∈ vs, numeric v = true) : allNum (constArgs vs) = some vs := by
  induction vs with
  | nil => rfl
  | cons v vs ih =>
    simp only [constArgs, allNum, exVal, h v (by simp), if_true]
    rw [ih (fun w hw => h w (by simp [hw]))]
    rfl

theorem nameRed_value (c : Ctx) (nest : Ex → RRes Ex) (s : List Char) (p : Par) (e : Ex) (r : List Char) (w v : Base.Val)
    (hp : c.par s = some p) (ht : parse c.ci p.text = .ok (rpn e, r)) (he : nest e = .ok (.const w)) (ha : assign p.ty w = .val v) :
    nameRed c nest s = .ok (.const v) := by
  simp only [nameRed, hp, ht]
  rw [dec_rpn e [] trivial]
  simp only [he, RRes.bind, exVal, ha, ofOut]

theorem symRed_name (c : Ctx) (nest : Ex → RRes Ex) (s : List Char) (hs : isNumber s = false) (hq : s.head? ≠ some '"') :
    symRed c nest s = nameRed c nest s := by
  simp only [symRed, hs, Bool.false_eq_true, if_false]
  split
  · exact absurd rfl hq
  · rfl

theorem binRed_value (op : List Char) (o : Base.Op) (x y v : Base.Val) (ho : opOf op = some o) (hv : Base.binop o x y = .val v) :
    binRed op (.const x) (.const y) = .ok (.const v) := by
  simp only [binRed, binData, ho, hv, ofOut, RRes.bind]

theorem unRed_value (op : List Char) (o : Base.Uop) (x v : Base.Val) (ho : uopOf op = some o) (hv : Base.unop o x = .val v) :
    unRed op (.const x) = .ok (.const v) := by
  simp only [unRed, unData, ho, hv, ofOut, RRes.bind]

theorem quote_not_number (r : List Char) : isNumber ('"' :: r) = false := by simp only [isNumber]; rfl

theorem den_red (c : Ctx) (n : ℕ) (e : Ex) (v : Base.Val) (h : Den c n e v) : redN c (n + 1) e = .ok (.const v) := by
  refine Den.rec (motive_1 := fun n e v _ => redN c (n + 1) e = .ok (.const v))
    (motive_2 := fun n a vs _ => redArgs c (redN c n) a = .ok (constArgs vs)) ?_ ?_ ?_ ?_ ?_ ?_ ?_ ?_ ?_ ?_ ?_ ?_ h
  · intro n s v h hv
    rw [redN, red_name]
    simp only [symRed, h, if_true, hv, RRes.bind]
  · intro n r d rest hq
    rw [redN, red_name, symRed, quote_not_number]
    simp only [hq, Bool.false_eq_true, if_false]
  · intro n s p e r w v hs hq hp ht _ ha ih
    rw [redN, red_name, symRed_name c _ s hs hq]
    exact nameRed_value c _ s p e r w v hp ht ih ha
  · intro n v
    rw [redN, red_const]
  · intro n op o e w v ho _ hv ih
    rw [redN] at ih
    rw [redN, red_un, ih]
    exact unRed_value op o w v ho hv
  · intro n op o a b x y v ho _ _ hv iha ihb
    rw [redN] at iha ihb
    rw [redN, red_bin, iha, ihb]
    exact binRed_value op o x y v ho hv
  · intro n e t f w v _ hn hb _ ihe iht
    rw [redN] at ihe iht
    rw [redN, red_tern, ihe]
    simp only [RRes.bind, exVal, hn, hb, if_true]
    exact iht
  · intro n e t f w v _ hn hb _ ihe ihf
    rw [redN] at ihe ihf
    rw [redN, red_tern, ihe]
    simp only [RRes.bind, exVal, hn, hb, if_true, Bool.false_eq_true, if_false]
    exact ihf
  · intro n f ev a vs q hf _ hn hq ih
    rw [redN, red_call, ih]
    simp only [RRes.bind, hf, callRed]
    rw [allNum_const vs hn]
    simp only [hq]
  · intro n f drops g e w v hf _ hn hg ih
    rw [redN] at ih
    rw [redN, red_call, redArgs_cons, ih, redArgs_nil]
    simp only [RRes.bind, hf, callRed, unsnoc, exVal, hn, if_true, hg]
  · intro n
    rw [redArgs_nil]; rfl
  · intro n e a v vs _ _ ihe iha
    rw [redN] at ihe
    rw [redArgs_cons, ihe, iha]
    rfl

/-! ## a constant is the value -/

theorem binRed_const (op : List Char) (a b : Ex) (v : Base.Val) (h : binRed op a b = .ok (.const v)) :
    ∃ o x y, a = .const x ∧ b = .const y ∧ opOf op = some o ∧ Base.binop o x y = .val v := by
  cases b with
  | const y =>
    cases a with
    | const x =>
      simp only [binRed, binData] at h
      cases ho : opOf op with
      | none => rw [ho] at h; cases h
      | some o =>
        rw [ho] at h
        simp only at h
        cases hv : Base.binop o x y with
        | val w => rw [hv] at h; cases h; exact ⟨o, x, y, rfl, rfl, rfl, hv⟩
        | null => rw [hv] at h; cases h
        | ub => rw [hv] at h; cases h
        | special => rw [hv] at h; cases h
    | bin o p q =>
      cases q with
      | const z =>
        simp only [binRed] at h
        split at h
        · simp only [binData] at h
          split at h
          · rename_i o2 _
            cases hv : Base.binop o2 z y with
            | val w => rw [hv] at h; cases h
            | null => rw [hv] at h; cases h
            | ub => rw [hv] at h; cases h
            | special => rw [hv] at h; cases h
          · cases h
        · cases h
      | _ => cases h
    | _ => cases h
  | name s =>
    cases a with
    | const x => simp only [binRed] at h; split at h <;> cases h
    | bin o p q => cases q <;> cases h
    | _ => cases h
  | _ =>
    rw [binRed_other op a _ (by intro s h; cases h) rfl] at h
    cases h

theorem unRed_const (op : List Char) (e : Ex) (v : Base.Val) (h : unRed op e = .ok (.const v)) :
    ∃ o x, e = .const x ∧ uopOf op = some o ∧ Base.unop o x = .val v := by
  cases e with
  | const x =>
    simp only [unRed, unData] at h
    cases ho : uopOf op with
    | none => rw [ho] at h; cases h
    | some o =>
      rw [ho] at h
      simp only at h
      cases hv : Base.unop o x with
      | val w => rw [hv] at h; cases h; exact ⟨o, x, rfl, rfl, hv⟩
      | null => rw [hv] at h; cases h
      | ub => rw [hv] at h; cases h
      | special => rw [hv] at h; cases h
  | _ => cases h

theorem RRes.bind_ok {α β : Type} {x : RRes α} {f : α → RRes β} {b : β} (h : x.bind f = .ok b) : ∃ a, x = .ok a ∧ f a = .ok b := by
  cases x with
  | ok a => exact ⟨a, rfl, h⟩
  | err => cases h
  | ub => cases h
  | special => cases h

theorem exVal_some {e : Ex} {v : Base.Val} (h : exVal e = some v) : e = .const v := by cases e <;> cases h; rfl

theorem callRed_const (f : List Char) (a : Args) (g : Fn) (v : Base.Val) (h : callRed f a g = .ok (.const v)) :
    (∃ ev vs q, g = .usual ev ∧ allNum a = some vs ∧ ev vs = some q ∧ v = .flt q) ∨
      ∃ drops fn w, g = .one drops fn ∧ a = .cons (.const w) .nil ∧ numeric w = true ∧ fn w = some v := by
  cases g with
  | usual ev =>
    left
    simp only [callRed] at h
    split at h
    · cases h
    · rename_i vs hvs
      split at h
      · cases h
      · rename_i q hq
        cases h
        exact ⟨ev, vs, q, rfl, hvs, hq, rfl⟩
  | one drops fn =>
    right
    simp only [callRed] at h
    split at h
    · cases h
    · rename_i b l hb
      split at h
      · cases h
      · rename_i w hw
        split at h
        · rename_i hn
          split at h
          · cases h
          · rename_i r hr
            split at h
            · cases h
              have : a = .cons l .nil := by
                cases a with
                | nil => cases hb
                | cons e r =>
                  simp only [unsnoc] at hb
                  split at hb
                  · rename_i hu; cases hb; rw [unsnoc_none r hu]
                  · cases hb
              rw [exVal_some hw] at this
              exact ⟨drops, fn, w, rfl, this, hn, hr⟩
            · cases h
        · split at h <;> cases h

/-- `Par`s of type string are not converted from a number (see `string_parameter_wrong`) -/
def NoStringPar (c : Ctx) : Prop := ∀ s p, c.par s = some p → p.ty ≠ .vstr

theorem assign_not_null (ty : Ty) (v : Base.Val) (h : ty ≠ .vstr) : assign ty v ≠ .null := by
  by_cases hs : ty = .vstr
  · exact absurd hs h
  · cases ty <;> cases v <;> simp only [assign, Base.mkInt, Base.mkVint, ne_eq] <;> first | exact absurd rfl h | (split <;> simp) | simp

theorem nameRed_const (c : Ctx) (hc : NoStringPar c) (nest : Ex → RRes Ex) (s : List Char) (v : Base.Val)
    (h : nameRed c nest s = .ok (.const v)) : ∃ p e r w, c.par s = some p ∧ parse c.ci p.text = .ok (rpn e, r) ∧ nest e = .ok (.const w) ∧
      assign p.ty w = .val v := by
  simp only [nameRed] at h
  split at h
  · cases h
  · rename_i p hp
    split at h
    · rename_i pp r hpp
      obtain ⟨e0, he0⟩ := parse_shape c.ci p.text pp r hpp
      subst he0
      rw [dec_rpn e0 [] trivial] at h
      simp only at h
      obtain ⟨e, he, h⟩ := RRes.bind_ok h
      split at h
      · rename_i hv
        cases h
        cases hv
      · rename_i w hw
        have := exVal_some hw
        subst this
        cases ha : assign p.ty w with
        | val u => rw [ha] at h; cases h; exact ⟨p, e0, r, w, hp, hpp, he, ha⟩
        | null => exact absurd ha (assign_not_null p.ty w (hc s p hp))
        | ub => rw [ha] at h; cases h
        | special => rw [ha] at h; cases h
    · cases h

mutual
theorem red_den (c : Ctx) (hc : NoStringPar c) (n : ℕ) (ihn : ∀ m, n = m + 1 → ∀ e v, redN c (m + 1) e = .ok (.const v) → Den c m e v) :
    ∀ (e : Ex) (v : Base.Val), red c (redN c n) e = .ok (.const v) → Den c n e v
  | .name s, v, h => by
    rw [red_name] at h
    by_cases hs : isNumber s = true
    · simp only [symRed, hs, if_true] at h
      obtain ⟨w, hw, h⟩ := RRes.bind_ok h
      cases h
      exact .num n s v hs hw
    · have hs' : isNumber s = false := by simpa using hs
      by_cases hq : s.head? = some '"'
      · cases s with
        | nil => cases hq
        | cons ch r =>
          simp only [List.head?_cons, Option.some.injEq] at hq
          subst hq
          rw [symRed, quote_not_number] at h
          simp only [Bool.false_eq_true, if_false] at h
          split at h
          · rename_i d rest hd
            cases h
            exact .quote n r d rest hd
          · cases h
      · rw [symRed_name c _ s hs' hq] at h
        obtain ⟨p, e, r, w, hp, ht, he, ha⟩ := nameRed_const c hc _ s v h
        cases n with
        | zero => cases he
        | succ m => exact .par m s p e r w v hs' hq hp ht (ihn m rfl e w he) ha
  | .const w, v, h => by
    rw [red_const] at h
    cases h
    exact .const n w
  | .call f a, v, h => by
    rw [red_call] at h
    obtain ⟨a', ha', h⟩ := RRes.bind_ok h
    cases hf : c.fn f with
    | none => rw [hf] at h; cases h
    | some g =>
      rw [hf] at h
      rcases callRed_const f a' g v h with ⟨ev, vs, q, hg, hvs, hq, hv⟩ | ⟨drops, fn, w, hg, hw, hnum, hr⟩
      · subst hg hv
        obtain ⟨h1, h2⟩ := redArgs_den c hc n ihn a a' vs ha' hvs
        exact .usual n f ev a vs q hf h1 h2 hq
      · subst hg hw
        have hvs : allNum (.cons (.const w) .nil) = some [w] := by simp [allNum, exVal, hnum]
        obtain ⟨h1, h2⟩ := redArgs_den c hc n ihn a _ [w] ha' hvs
        cases h1 with
        | cons _ e a0 _ _ he hrest =>
          cases hrest
          exact .one n f drops fn e w v hf he hnum hr
  | .arr a, v, h => by
    rw [red_arr] at h
    obtain ⟨a', _, h⟩ := RRes.bind_ok h
    cases h
  | .un op e, v, h => by
    rw [red_un] at h
    obtain ⟨e', he, h⟩ := RRes.bind_ok h
    obtain ⟨o, x, hx, ho, hv⟩ := unRed_const op e' v h
    subst hx
    exact .un n op o e x v ho (red_den c hc n ihn e x he) hv
  | .bin op a b, v, h => by
    rw [red_bin] at h
    obtain ⟨a', ha, h⟩ := RRes.bind_ok h
    obtain ⟨b', hb, h⟩ := RRes.bind_ok h
    obtain ⟨o, x, y, hx, hy, ho, hv⟩ := binRed_const op a' b' v h
    subst hx hy
    exact .bin n op o a b x y v ho (red_den c hc n ihn a x ha) (red_den c hc n ihn b y hb) hv
  | .tern e t f, v, h => by
    rw [red_tern] at h
    obtain ⟨e', he, h⟩ := RRes.bind_ok h
    have keep : ternKeep (redN c n) e' t f ≠ .ok (.const v) := by
      intro hk
      obtain ⟨_, _, hk⟩ := RRes.bind_ok hk
      obtain ⟨_, _, hk⟩ := RRes.bind_ok hk
      cases hk
    split at h
    · rename_i w hw
      have := exVal_some hw
      subst this
      split at h
      · rename_i hnum
        split at h
        · rename_i hb
          exact .ternT n e t f w v (red_den c hc n ihn e w he) hnum hb (red_den c hc n ihn t v h)
        · rename_i hb
          exact .ternF n e t f w v (red_den c hc n ihn e w he) hnum (by simpa using hb) (red_den c hc n ihn f v h)
      · exact absurd h keep
    · exact absurd h keep

theorem redArgs_den (c : Ctx) (hc : NoStringPar c) (n : ℕ) (ihn : ∀ m, n = m + 1 → ∀ e v, redN c (m + 1) e = .ok (.const v) → Den c m e v) :
    ∀ (a a' : Args) (vs : List Base.Val), redArgs c (redN c n) a = .ok a' → allNum a' = some vs →
      DenArgs c n a vs ∧ ∀ v ∈ vs, numeric v = true
  | .nil, a', vs, h, hv => by
    rw [redArgs_nil] at h
    cases h
    cases hv
    exact ⟨.nil n, by simp⟩
  | .cons e r, a', vs, h, hv => by
    rw [redArgs_cons] at h
    obtain ⟨e', he, h⟩ := RRes.bind_ok h
    obtain ⟨r', hr, h⟩ := RRes.bind_ok h
    cases h
    simp only [allNum] at hv
    split at hv
    · rename_i w hw
      have := exVal_some hw
      subst this
      split at hv
      · rename_i hnum
        cases hvr : allNum r' with
        | none => rw [hvr] at hv; cases hv
        | some ws =>
          rw [hvr] at hv
          cases hv
          obtain ⟨h1, h2⟩ := redArgs_den c hc n ihn r r' ws hr hvr
          refine ⟨.cons n e r w ws (red_den c hc n ihn e w he) h1, ?_⟩
          intro v hv
          rcases List.mem_cons.1 hv with rfl | hv
          · exact hnum
          · exact h2 v hv
      · cases hv
    · cases hv
end

theorem redN_den (c : Ctx) (hc : NoStringPar c) : ∀ (n : ℕ) (e : Ex) (v : Base.Val), redN c (n + 1) e = .ok (.const v) → Den c n e v
  | 0, e, v, h => red_den c hc 0 (fun m hm => by omega) e v h
  | n + 1, e, v, h => red_den c hc (n + 1) (fun m hm e v => by
      obtain rfl : n = m := by omega
      exact redN_den c hc n e v) e v h

/-- C40: with `n + 1` levels of recursion allowed, reducing the tokens of an expression delivers one constant exactly when the
expression has a value in the scope and no parameter is defined through more than `n` others, and the constant is the value -/
theorem reduce_value (c : Ctx) (hc : NoStringPar c) (n : ℕ) (e : Ex) (v : Base.Val) :
    reduce c (n + 1) (rpn e) = .ok [.const v] ↔ Den c n e v := by
  rw [reduce_rpn]
  constructor
  · intro h
    obtain ⟨e', he, h⟩ := RRes.bind_ok h
    have h2 : rpn e' = rpn (.const v) := by
      rw [show rpn (.const v) = [.const v] by rw [rpn]]
      exact RRes.ok.inj h
    rw [rpn_injective _ _ h2] at he
    exact redN_den c hc n e v he
  · intro h
    rw [den_red c n e v h]
    simp only [RRes.bind]
    rw [rpn]

/-- C40: one direction needs nothing: an expression with a value reduces to it -/
theorem reduce_complete (c : Ctx) (n : ℕ) (e : Ex) (v : Base.Val) (h : Den c n e v) : reduce c (n + 1) (rpn e) = .ok [.const v] := by
  rw [reduce_rpn, den_red c n e v h]
  simp only [RRes.bind]
  rw [rpn]

/-- an expression has at most one value -/
theorem den_unique (c : Ctx) (n m : ℕ) (e : Ex) (v w : Base.Val) (h1 : Den c n e v) (h2 : Den c m e w) (hnm : n = m) : v = w := by
  subst hnm
  have a := den_red c n e v h1
  have b := den_red c n e w h2
  rw [a] at b
  cases b
  rfl

/-- more levels do no harm -/
theorem den_mono (c : Ctx) (n : ℕ) (e : Ex) (v : Base.Val) (h : Den c n e v) : Den c (n + 1) e v := by
  refine Den.rec (motive_1 := fun n e v _ => Den c (n + 1) e v) (motive_2 := fun n a vs _ => DenArgs c (n + 1) a vs)
    ?_ ?_ ?_ ?_ ?_ ?_ ?_ ?_ ?_ ?_ ?_ ?_ h
  · intro n s v h hv; exact .num _ s v h hv
  · intro n r d rest hq; exact .quote _ r d rest hq
  · intro n s p e r w v hs hq hp ht _ ha ih; exact .par _ s p e r w v hs hq hp ht ih ha
  · intro n v; exact .const _ v
  · intro n op o e w v ho _ hv ih; exact .un _ op o e w v ho ih hv
  · intro n op o a b x y v ho _ _ hv iha ihb; exact .bin _ op o a b x y v ho iha ihb hv
  · intro n e t f w v _ hn hb _ ihe iht; exact .ternT _ e t f w v ihe hn hb iht
  · intro n e t f w v _ hn hb _ ihe ihf; exact .ternF _ e t f w v ihe hn hb ihf
  · intro n f ev a vs q hf _ hn hq ih; exact .usual _ f ev a vs q hf ih hn hq
  · intro n f drops g e w v hf _ hn hg ih; exact .one _ f drops g e w v hf ih hn hg
  · intro n; exact .nil _
  · intro n e a v vs _ _ ihe iha; exact .cons _ e a v vs ihe iha

theorem den_le (c : Ctx) (n m : ℕ) (e : Ex) (v : Base.Val) (hnm : n ≤ m) (h : Den c n e v) : Den c m e v := by
  induction hnm with
  | refl => exact h
  | step _ ih => exact den_mono c _ e v ih

/-- the value does not depend on the number of levels allowed -/
theorem den_fun (c : Ctx) (n m : ℕ) (e : Ex) (v w : Base.Val) (h1 : Den c n e v) (h2 : Den c m e w) : v = w :=
  den_unique c (max n m) (max n m) e v w (den_le c n _ e v (le_max_left _ _) h1) (den_le c m _ e w (le_max_right _ _) h2) rfl

end Gnucap.Expr
