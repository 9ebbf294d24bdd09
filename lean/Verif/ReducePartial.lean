import Verif.ReduceSound

/-!
# Reducing against a partly known scope keeps the value in every completion of the scope (continued), and where it does not
-/
set_option linter.unusedSimpArgs false
namespace Gnucap.Expr
open Gnucap.Scan Gnucap.Num

/-- the scope with more (or other) parameters -/
def Ctx.with (c : Ctx) (q : List Char → Option Par) : Ctx := { c with par := q }

/-- every parameter of `c` is in `q`, as it is -/
def Completes (c : Ctx) (q : List Char → Option Par) : Prop := ∀ s p, c.par s = some p → q s = some p

mutual
/-- no sign or `!` is left -/
def noUn : Ex → Prop
  | .name _ => True
  | .const _ => True
  | .call _ a => noUnArgs a
  | .arr a => noUnArgs a
  | .un _ _ => False
  | .bin _ a b => noUn a ∧ noUn b
  | .tern e t f => noUn e ∧ noUn t ∧ noUn f

def noUnArgs : Args → Prop
  | .nil => True
  | .cons e r => noUn e ∧ noUnArgs r
end

theorem nu_const (v : Base.Val) : noUn (.const v) := by rw [noUn]; trivial
theorem nu_call (f : List Char) (a : Args) : noUn (.call f a) ↔ noUnArgs a := by rw [noUn]
theorem nu_arr (a : Args) : noUn (.arr a) ↔ noUnArgs a := by rw [noUn]
theorem nu_un (op : List Char) (e : Ex) : ¬noUn (.un op e) := by rw [noUn]; exact id
theorem nu_bin (op : List Char) (a b : Ex) : noUn (.bin op a b) ↔ noUn a ∧ noUn b := by rw [noUn]
theorem nu_tern (e t f : Ex) : noUn (.tern e t f) ↔ noUn e ∧ noUn t ∧ noUn f := by rw [noUn]
theorem nu_nil : noUnArgs .nil := by rw [noUnArgs]; trivial
theorem nu_cons (e : Ex) (r : Args) : noUnArgs (.cons e r) ↔ noUn e ∧ noUnArgs r := by rw [noUnArgs]

/-- what the theorem assumes of the scopes: not Verilog mode, no parameter of the integer type of Verilog-AMS, functions do not make such
constants, and a parameter that has a type has a value already in the partly known scope -/
structure Usual (c : Ctx) (q : List Char → Option Par) : Prop where
  verilog : c.verilog = false
  completes : Completes c q
  noVint : ∀ s p, q s = some p → p.ty ≠ .vint
  fns : ∀ f d g w v, c.fn f = some (.one d g) → g w = some v → notVint v = true
  typed : ∀ s p, c.par s = some p → p.ty = .any ∨ ∃ n v, Den c n (.name s) v

/-! ## values are kept when more is known -/

theorem den_with (c : Ctx) (q : List Char → Option Par) (hq : Completes c q) (n : ℕ) (e : Ex) (v : Base.Val) (h : Den c n e v) :
    Den (c.with q) n e v := by
  refine Den.rec (motive_1 := fun n e v _ => Den (c.with q) n e v) (motive_2 := fun n a vs _ => DenArgs (c.with q) n a vs)
    ?_ ?_ ?_ ?_ ?_ ?_ ?_ ?_ ?_ ?_ ?_ ?_ h
  · intro n s v h hv; exact .num _ s v h hv
  · intro n r d rest hq; exact .quote _ r d rest hq
  · intro n s p e r w v hs hh hp ht _ ha ih; exact .par _ s p e r w v hs hh (hq s p hp) ht ih ha
  · intro n v; exact .const _ v
  · intro n op o e w v ho _ hv ih; exact .un _ op o e w v ho ih hv
  · intro n op o a b x y v ho _ _ hv iha ihb; exact .bin _ op o a b x y v ho iha ihb hv
  · intro n e t f w v _ hn hb _ ihe iht; exact .ternT _ e t f w v ihe hn hb iht
  · intro n e t f w v _ hn hb _ ihe ihf; exact .ternF _ e t f w v ihe hn hb ihf
  · intro n f ev a vs q hf _ hn hq ih; exact .usual _ f ev a vs q hf ih hn hq
  · intro n f drops g e w v hf _ hn hg ih; exact .one _ f drops g e w v hf ih hn hg
  · intro n; exact .nil _
  · intro n e a v vs _ _ ihe iha; exact .cons _ e a v vs ihe iha

theorem numConst_plain (c : Ctx) (hc : c.verilog = false) (s : List Char) (v : Base.Val) (h : numConst c s = .ok v) : notVint v = true := by
  simp only [numConst] at h
  split at h
  · split at h
    · cases h
    · split at h
      · simp only [hc, Bool.false_eq_true, if_false] at h; cases h; rfl
      · cases h
  · split at h
    · cases h
    · cases h
    · simp only [hc, Bool.false_eq_true, if_false] at h; cases h; rfl

theorem den_plain (c : Ctx) (hv : c.verilog = false) (hp : ∀ s p, c.par s = some p → p.ty ≠ .vint)
    (hf : ∀ f d g w v, c.fn f = some (.one d g) → g w = some v → notVint v = true) (n : ℕ) (e : Ex) (v : Base.Val) (h : Den c n e v) :
    PlainEx e → notVint v = true := by
  refine Den.rec (motive_1 := fun n e v _ => PlainEx e → notVint v = true) (motive_2 := fun n a vs _ => True)
    ?_ ?_ ?_ ?_ ?_ ?_ ?_ ?_ ?_ ?_ ?_ ?_ h
  · intro n s v _ h _; exact numConst_plain c hv s v h
  · intro n r d rest hq _; rfl
  · intro n s p e r w v hs hh hpp ht _ ha ih _
    exact assign_plain p.ty w v (hp s p hpp) (ih (parse_plain c.ci p.text e r ht)) ha
  · intro n v h; exact (pl_const v).1 h
  · intro n op o e w v ho _ hv ih _; exact unop_plain o w v hv
  · intro n op o a b x y v ho _ _ hv iha ihb hp
    exact binop_plain o x y v (ihb ((pl_bin op a b).1 hp).2) hv
  · intro n e t f w v _ hn hb _ ihe iht hp
    exact iht ((pl_tern e t f).1 hp).2.1
  · intro n e t f w v _ hn hb _ ihe ihf hp
    exact ihf ((pl_tern e t f).1 hp).2.2
  · intro n f ev a vs q hf _ hn hq ih _; rfl
  · intro n f drops g e w v hfn _ hn hg ih _; exact hf f drops g w v hfn hg
  · intro n; trivial
  · intro n e a v vs _ _ ihe iha; trivial

/-! ## more levels do no harm -/

theorem nameRed_mono (c : Ctx) (nest nest' : Ex → RRes Ex) (hn : ∀ e e', nest e = .ok e' → nest' e = .ok e') (s : List Char) (e' : Ex)
    (h : nameRed c nest s = .ok e') : nameRed c nest' s = .ok e' := by
  simp only [nameRed] at h ⊢
  cases hp : c.par s with
  | none => rw [hp] at h; exact h
  | some p =>
    rw [hp] at h
    simp only at h ⊢
    cases hpp : parse c.ci p.text with
    | ok r =>
      obtain ⟨pp, r⟩ := r
      rw [hpp] at h
      simp only at h ⊢
      obtain ⟨e0, he0⟩ := parse_shape c.ci p.text pp r hpp
      subst he0
      rw [dec_rpn e0 [] trivial] at h ⊢
      simp only at h ⊢
      obtain ⟨e1, he1, h⟩ := RRes.bind_ok h
      rw [hn e0 e1 he1]
      exact h
    | err => rw [hpp] at h; cases h
    | fuel => rw [hpp] at h; cases h

theorem symRed_mono (c : Ctx) (nest nest' : Ex → RRes Ex) (hn : ∀ e e', nest e = .ok e' → nest' e = .ok e') (s : List Char) (e' : Ex)
    (h : symRed c nest s = .ok e') : symRed c nest' s = .ok e' := by
  by_cases hs : isNumber s = true
  · simp only [symRed, hs, if_true] at h ⊢; exact h
  · have hs' : isNumber s = false := by simpa using hs
    by_cases hq : s.head? = some '"'
    · cases s with
      | nil => cases hq
      | cons ch r =>
        simp only [List.head?_cons, Option.some.injEq] at hq
        subst hq
        rw [symRed, quote_not_number] at h ⊢
        exact h
    · rw [symRed_name c _ s hs' hq] at h ⊢
      exact nameRed_mono c nest nest' hn s e' h

theorem RRes.ok_bind {α β : Type} (a : α) (f : α → RRes β) : (RRes.ok a).bind f = f a := rfl

theorem ternKeep_mono (nest nest' : Ex → RRes Ex) (hn : ∀ e e', nest e = .ok e' → nest' e = .ok e') (e t f e' : Ex)
    (h : ternKeep nest e t f = .ok e') : ternKeep nest' e t f = .ok e' := by
  simp only [ternKeep] at h ⊢
  obtain ⟨te, ht, h⟩ := RRes.bind_ok h
  obtain ⟨fe, hf, h⟩ := RRes.bind_ok h
  rw [hn t te ht, RRes.ok_bind, hn f fe hf]
  exact h

mutual
theorem red_mono (c : Ctx) (nest nest' : Ex → RRes Ex) (hn : ∀ e e', nest e = .ok e' → nest' e = .ok e') :
    ∀ (e e' : Ex), red c nest e = .ok e' → red c nest' e = .ok e'
  | .name s, e', h => by
    rw [red_name] at h ⊢
    exact symRed_mono c nest nest' hn s e' h
  | .const v, e', h => by
    rw [red_const] at h ⊢
    exact h
  | .call f a, e', h => by
    rw [red_call] at h ⊢
    obtain ⟨a', ha, h⟩ := RRes.bind_ok h
    rw [redArgs_mono c nest nest' hn a a' ha]
    exact h
  | .arr a, e', h => by
    rw [red_arr] at h ⊢
    obtain ⟨a', ha, h⟩ := RRes.bind_ok h
    rw [redArgs_mono c nest nest' hn a a' ha]
    exact h
  | .un op e, e', h => by
    rw [red_un] at h ⊢
    obtain ⟨e1, he, h⟩ := RRes.bind_ok h
    rw [red_mono c nest nest' hn e e1 he]
    exact h
  | .bin op a b, e', h => by
    rw [red_bin] at h ⊢
    obtain ⟨a1, ha, h⟩ := RRes.bind_ok h
    obtain ⟨b1, hb, h⟩ := RRes.bind_ok h
    rw [red_mono c nest nest' hn a a1 ha, RRes.ok_bind, red_mono c nest nest' hn b b1 hb]
    exact h
  | .tern e t f, e', h => by
    rw [red_tern] at h ⊢
    obtain ⟨e1, he, h⟩ := RRes.bind_ok h
    rw [red_mono c nest nest' hn e e1 he, RRes.ok_bind]
    cases hv : exVal e1 with
    | none => rw [hv] at h; exact ternKeep_mono nest nest' hn _ t f e' h
    | some v =>
      rw [hv] at h
      simp only at h ⊢
      split at h
      · rename_i hnum
        simp only [hnum, if_true]
        split at h
        · rename_i hb; simp only [hb, if_true]; exact red_mono c nest nest' hn t e' h
        · rename_i hb; simp only [hb, if_false]; exact red_mono c nest nest' hn f e' h
      · rename_i hnum
        simp only [hnum, if_false]
        exact ternKeep_mono nest nest' hn _ t f e' h

theorem redArgs_mono (c : Ctx) (nest nest' : Ex → RRes Ex) (hn : ∀ e e', nest e = .ok e' → nest' e = .ok e') :
    ∀ (a a' : Args), redArgs c nest a = .ok a' → redArgs c nest' a = .ok a'
  | .nil, a', h => by
    rw [redArgs_nil] at h ⊢
    exact h
  | .cons e r, a', h => by
    rw [redArgs_cons] at h ⊢
    obtain ⟨e1, he, h⟩ := RRes.bind_ok h
    obtain ⟨r1, hr, h⟩ := RRes.bind_ok h
    rw [red_mono c nest nest' hn e e1 he, RRes.ok_bind, redArgs_mono c nest nest' hn r r1 hr]
    exact h
end

theorem redN_succ (c : Ctx) : ∀ (n : ℕ) (e e' : Ex), redN c n e = .ok e' → redN c (n + 1) e = .ok e'
  | 0, e, e', h => by cases h
  | n + 1, e, e', h => red_mono c (redN c n) (redN c (n + 1)) (redN_succ c n) e e' h

theorem redN_le (c : Ctx) (n m : ℕ) (hnm : n ≤ m) (e e' : Ex) (h : redN c n e = .ok e') : redN c m e = .ok e' := by
  induction hnm with
  | refl => exact h
  | step _ ih => exact redN_succ c _ e e' ih

/-- whatever number of levels suffices, an expression with a value reduces to it -/
theorem redN_den_const (c : Ctx) (n m : ℕ) (e e' : Ex) (v : Base.Val) (h : redN c n e = .ok e') (hd : Den c m e v) : e' = .const v := by
  have h1 := redN_le c n (max n (m + 1)) (le_max_left _ _) e e' h
  have h2 := redN_le c (m + 1) (max n (m + 1)) (le_max_right _ _) e (.const v) (den_red c m e v hd)
  rw [h1] at h2
  cases h2
  rfl

/-! ## soundness -/

/-- reducing gives an expression without Verilog integers, and with the same value in the completed scope if no sign is left -/
def Sound (c : Ctx) (q : List Char → Option Par) (e : Ex) (x : RRes Ex) : Prop :=
  ∀ e', x = .ok e' → PlainEx e' ∧ (noUn e' → ∀ n v, Den (c.with q) n e v → Den (c.with q) n e' v)

theorem den_const_inv (c : Ctx) (n : ℕ) (x v : Base.Val) (h : Den c n (.const x) v) : v = x := by cases h; rfl

theorem den_bin_inv (c : Ctx) (n : ℕ) (op : List Char) (a b : Ex) (v : Base.Val) (h : Den c n (.bin op a b) v) :
    ∃ o x y, opOf op = some o ∧ Den c n a x ∧ Den c n b y ∧ Base.binop o x y = .val v := by
  cases h with
  | bin _ _ o _ _ x y _ ho ha hb hv => exact ⟨o, x, y, ho, ha, hb, hv⟩

/-- the rewriting of sums, products and other operations -/
theorem binRed_sound (c : Ctx) (q : List Char → Option Par) (hu : Usual c q) (op : List Char) (a b e' : Ex) (ha : PlainEx a)
    (hb : PlainEx b) (h : binRed op a b = .ok e') :
    PlainEx e' ∧ (noUn e' → noUn a ∧ noUn b) ∧ ∀ n v, Den (c.with q) n (.bin op a b) v → Den (c.with q) n e' v := by
  have id_case : RRes.ok (.bin op a b) = .ok e' →
      PlainEx e' ∧ (noUn e' → noUn a ∧ noUn b) ∧ ∀ n v, Den (c.with q) n (.bin op a b) v → Den (c.with q) n e' v := by
    intro h
    cases h
    exact ⟨(pl_bin _ _ _).2 ⟨ha, hb⟩, (nu_bin _ _ _).1, fun n v h => h⟩
  cases b with
  | name s =>
    cases a with
    | const x =>
      simp only [binRed] at h
      split at h
      · rename_i hop
        cases h
        refine ⟨(pl_bin _ _ _).2 ⟨hb, ha⟩, fun h => ⟨((nu_bin _ _ _).1 h).2, ((nu_bin _ _ _).1 h).1⟩, ?_⟩
        intro n v hd
        obtain ⟨o, x', y, ho, hx, hy, hv⟩ := den_bin_inv _ _ _ _ _ _ hd
        have := den_const_inv _ _ _ _ hx
        subst this
        have hpx : notVint x' = true := (pl_const _).1 ha
        have hpy : notVint y = true := den_plain (c.with q) hu.verilog hu.noVint hu.fns n _ y hy (pl_name s)
        have hop' : isAddMul op = true ∧ Base.isStr x' = false := by simpa using hop
        refine .bin n op o _ _ y x' v ho hy (.const n x') ?_
        rcases isAddMul_op op o hop'.1 ho with rfl | rfl
        · rw [← add_comm_val x' y hpx hpy hop'.2]; exact hv
        · rw [← mul_comm_val x' y hpx hpy]; exact hv
      · exact id_case h
    | bin o2 p z => cases z <;> exact id_case h
    | _ => exact id_case h
  | const y =>
    cases a with
    | const x =>
      simp only [binRed, binData] at h
      cases ho : opOf op with
      | none => rw [ho] at h; cases h
      | some o =>
        rw [ho] at h
        simp only at h
        cases hv : Base.binop o x y with
        | val w =>
          rw [hv] at h
          cases h
          refine ⟨(pl_const _).2 (binop_plain o x y w ((pl_const y).1 hb) hv), fun _ => ⟨nu_const _, nu_const _⟩, ?_⟩
          intro n v hd
          obtain ⟨o', x', y', ho', hx, hy, hv'⟩ := den_bin_inv _ _ _ _ _ _ hd
          have e1 := den_const_inv _ _ _ _ hx
          have e2 := den_const_inv _ _ _ _ hy
          subst e1 e2
          rw [ho] at ho'
          cases ho'
          rw [hv] at hv'
          cases hv'
          exact .const n _
        | null => rw [hv] at h; exact id_case h
        | ub => rw [hv] at h; cases h
        | special => rw [hv] at h; cases h
    | bin op2 p z =>
      cases z with
      | const z =>
        simp only [binRed] at h
        split at h
        · rename_i hc
          obtain ⟨rfl, hop⟩ := hc
          simp only [binData] at h
          cases ho : opOf op2 with
          | none => rw [ho] at h; cases h
          | some o =>
            rw [ho] at h
            simp only at h
            cases hv : Base.binop o z y with
            | val w =>
              rw [hv] at h
              cases h
              obtain ⟨hpp, hpz⟩ := (pl_bin _ _ _).1 ha
              refine ⟨(pl_bin _ _ _).2 ⟨hpp, (pl_const _).2 (binop_plain o z y w ((pl_const y).1 hb) hv)⟩, ?_, ?_⟩
              · intro hn
                exact ⟨(nu_bin _ _ _).2 ⟨((nu_bin _ _ _).1 hn).1, nu_const _⟩, nu_const _⟩
              · intro n v hd
                obtain ⟨o1, x1, y1, ho1, hx1, hy1, hv1⟩ := den_bin_inv _ _ _ _ _ _ hd
                obtain ⟨o2, x2, y2, ho2, hx2, hy2, hv2⟩ := den_bin_inv _ _ _ _ _ _ hx1
                have e1 := den_const_inv _ _ _ _ hy1
                have e2 := den_const_inv _ _ _ _ hy2
                subst e1 e2
                rw [ho] at ho1 ho2
                cases ho1
                cases ho2
                refine .bin n op2 o _ _ x2 w v ho hx2 (.const n w) ?_
                rcases isAddMul_op op2 o hop ho with rfl | rfl
                · exact add_assoc_val x2 y2 y1 x1 v w hv2 hv1 hv
                · exact mul_assoc_val x2 y2 y1 x1 v w hv2 hv1 hv
            | null => rw [hv] at h; exact id_case h
            | ub => rw [hv] at h; cases h
            | special => rw [hv] at h; cases h
        · exact id_case h
      | _ => exact id_case h
    | _ => exact id_case h
  | _ =>
    rw [binRed_other op a _ (by intro s h; cases h) rfl] at h
    exact id_case h

theorem constArgs_of_allNum : ∀ (a : Args) (vs : List Base.Val), allNum a = some vs →
    a = constArgs vs ∧ (∀ v ∈ vs, numeric v = true) ∧ noUnArgs a := by
  intro a
  induction a using Args.rec (motive_1 := fun _ => True) with
  | nil => intro vs h; cases h; exact ⟨rfl, by simp, nu_nil⟩
  | cons e r _ ih =>
    intro vs h
    simp only [allNum] at h
    split at h
    · rename_i w hw
      have := exVal_some hw
      subst this
      split at h
      · rename_i hnum
        cases hr : allNum r with
        | none => rw [hr] at h; cases h
        | some ws =>
          rw [hr] at h
          cases h
          obtain ⟨h1, h2, h3⟩ := ih ws hr
          refine ⟨by rw [h1]; rfl, ?_, (nu_cons _ _).2 ⟨nu_const _, h3⟩⟩
          intro v hv
          rcases List.mem_cons.1 hv with rfl | hv
          · exact hnum
          · exact h2 v hv
      · cases h
    · cases h
  | _ => trivial

theorem denArgs_const (c : Ctx) (n : ℕ) : ∀ (ws vs : List Base.Val), DenArgs c n (constArgs ws) vs → vs = ws := by
  intro ws
  induction ws with
  | nil => intro vs h; cases h; rfl
  | cons w ws ih =>
    intro vs h
    cases h with
    | cons _ _ _ v vs' he ha =>
      rw [den_const_inv _ _ _ _ he, ih vs' ha]

theorem unsnoc_plain : ∀ (a b : Args) (l : Ex), unsnoc a = some (b, l) → PlainArgs a → PlainArgs b := by
  intro a
  induction a using Args.rec (motive_1 := fun _ => True) with
  | nil => intro b l h; cases h
  | cons e r _ ih =>
    intro b l h hp
    simp only [unsnoc] at h
    split at h
    · cases h; exact pl_nil
    · rename_i b' l' hr
      cases h
      obtain ⟨h1, h2⟩ := (pl_cons e r).1 hp
      exact (pl_cons e _).2 ⟨h1, ih _ _ hr h2⟩
  | _ => trivial

/-- calls: `a` are the reduced arguments of the arguments `a0` -/
theorem callRed_sound (c : Ctx) (q : List Char → Option Par) (hu : Usual c q) (f : List Char) (g : Fn) (hg : c.fn f = some g) (a0 a : Args)
    (e' : Ex) (hpa : PlainArgs a) (hargs : noUnArgs a → ∀ n vs, DenArgs (c.with q) n a0 vs → DenArgs (c.with q) n a vs)
    (h : callRed f a g = .ok e') :
    PlainEx e' ∧ (noUn e' → ∀ n v, Den (c.with q) n (.call f a0) v → Den (c.with q) n e' v) := by
  have id_case : RRes.ok (.call f a) = .ok e' → PlainEx e' ∧ (noUn e' → ∀ n v, Den (c.with q) n (.call f a0) v → Den (c.with q) n e' v) := by
    intro h
    cases h
    refine ⟨(pl_call f a).2 hpa, ?_⟩
    intro hn n v hd
    have key := hargs ((nu_call f a).1 hn)
    cases hd with
    | usual _ _ ev _ vs r hf ha hnum hr => exact .usual n f ev a vs r hf (key n vs ha) hnum hr
    | one _ _ d fn e0 w v hf he hnum hr =>
      have h1 := key n [w] (.cons n e0 .nil w [] he (.nil n))
      cases h1 with
      | cons _ e1 a1 _ _ he1 ha1 =>
        cases ha1
        exact .one n f d fn e1 w v hf he1 hnum hr
  cases g with
  | usual ev =>
    simp only [callRed] at h
    cases hvs : allNum a with
    | none => rw [hvs] at h; exact id_case h
    | some vs =>
      rw [hvs] at h
      simp only at h
      cases hr : ev vs with
      | none => rw [hr] at h; exact id_case h
      | some r =>
        rw [hr] at h
        cases h
        refine ⟨(pl_const _).2 rfl, ?_⟩
        intro _ n v hd
        obtain ⟨h1, h2, h3⟩ := constArgs_of_allNum a vs hvs
        cases hd with
        | usual _ _ ev' _ vs' r' hf ha hnum hr' =>
          change c.fn f = _ at hf
          rw [hg] at hf
          cases hf
          have := hargs h3 n vs' ha
          rw [h1] at this
          have := denArgs_const _ n vs vs' this
          subst this
          rw [hr] at hr'
          cases hr'
          exact .const n _
        | one _ _ d fn e0 w v hf he hnum hr' =>
          change c.fn f = _ at hf
          rw [hg] at hf
          cases hf
  | one drops fn =>
    simp only [callRed] at h
    split at h
    · exact id_case h
    · rename_i b l hb
      split at h
      · exact id_case h
      · rename_i w hw
        have := exVal_some hw
        subst this
        split at h
        · rename_i hnum
          split at h
          · cases h
          · rename_i r hr
            split at h
            · cases h
              refine ⟨(pl_const _).2 (hu.fns f drops fn w r hg hr), ?_⟩
              intro _ n v hd
              have ha1 : a = .cons (.const w) .nil := by
                cases a with
                | nil => cases hb
                | cons e r =>
                  simp only [unsnoc] at hb
                  split at hb
                  · rename_i hu; cases hb; rw [unsnoc_none r hu]
                  · cases hb
              subst ha1
              have hnu : noUnArgs (.cons (.const w) .nil) := (nu_cons _ _).2 ⟨nu_const _, nu_nil⟩
              cases hd with
              | usual _ _ ev' _ vs' r' hf ha hnum hr' =>
                change c.fn f = _ at hf
                rw [hg] at hf
                cases hf
              | one _ _ d fn' e0 w' v hf he hnum hr' =>
                change c.fn f = _ at hf
                rw [hg] at hf
                cases hf
                have h1 := hargs hnu n [w'] (.cons n e0 .nil w' [] he (.nil n))
                cases h1 with
                | cons _ e1 a1 _ _ he1 ha1 =>
                  have := den_const_inv _ _ _ _ he1
                  subst this
                  rw [hr] at hr'
                  cases hr'
                  exact .const n _
            · exact id_case h
        · rename_i hnum
          split at h
          · -- `abs` of a string loses its argument; it has no value before
            cases h
            refine ⟨(pl_call f b).2 (unsnoc_plain a b _ hb hpa), ?_⟩
            intro hn n v hd
            exfalso
            cases hd with
            | usual _ _ ev' _ vs' r' hf ha hnum hr' =>
              change c.fn f = _ at hf
              rw [hg] at hf
              cases hf
            | one _ _ d fn' e0 w' v hf he hnum' hr' =>
              have hnb : noUnArgs a := by
                have : ∀ (a b : Args), unsnoc a = some (b, .const w) → noUnArgs b → noUnArgs a := by
                  intro a
                  induction a using Args.rec (motive_1 := fun _ => True) with
                  | nil => intro b h; cases h
                  | cons e r _ ih =>
                    intro b h hb
                    simp only [unsnoc] at h
                    split at h
                    · rename_i hr
                      cases h
                      rw [unsnoc_none r hr]
                      exact (nu_cons _ _).2 ⟨nu_const _, nu_nil⟩
                    · rename_i b' l' hr
                      cases h
                      obtain ⟨h1, h2⟩ := (nu_cons _ _).1 hb
                      exact (nu_cons _ _).2 ⟨h1, ih _ hr h2⟩
                  | _ => trivial
                exact this a b hb ((nu_call f b).1 hn)
              have h1 := hargs hnb n [w'] (.cons n e0 .nil w' [] he (.nil n))
              cases h1 with
              | cons _ e1 a1 _ _ he1 ha1 =>
                cases ha1
                simp only [unsnoc] at hb
                cases hb
                have := den_const_inv _ _ _ _ he1
                subst this
                exact hnum hnum'
          · exact id_case h

/-- names -/
theorem nameRed_sound (c : Ctx) (q : List Char → Option Par) (hu : Usual c q) (m : ℕ) (ih : ∀ e, PlainEx e → Sound c q e (redN c m e))
    (s : List Char) (hs : isNumber s = false) (hq : s.head? ≠ some '"') : Sound c q (.name s) (nameRed c (redN c m) s) := by
  intro e' h
  simp only [nameRed] at h
  cases hp : c.par s with
  | none =>
    rw [hp] at h
    cases h
    exact ⟨pl_name s, fun _ n v h => h⟩
  | some p =>
    rw [hp] at h
    simp only at h
    cases hpp : parse c.ci p.text with
    | ok r =>
      obtain ⟨pp, r⟩ := r
      rw [hpp] at h
      simp only at h
      obtain ⟨e0, he0⟩ := parse_shape c.ci p.text pp r hpp
      subst he0
      rw [dec_rpn e0 [] trivial] at h
      simp only at h
      obtain ⟨e1, he1, h⟩ := RRes.bind_ok h
      obtain ⟨hp1, hs1⟩ := ih e0 (parse_plain c.ci p.text e0 r hpp) e1 he1
      -- what a value of the name in the completed scope comes from
      have inv : ∀ n v, Den (c.with q) n (.name s) v → ∃ k w, n = k + 1 ∧ Den (c.with q) k e0 w ∧ assign p.ty w = .val v := by
        intro n v hd
        cases hd with
        | num _ _ _ h1 _ => rw [hs] at h1; cases h1
        | quote _ r d rest _ => exact absurd rfl hq
        | par k _ p' e r' w _ _ _ hp' ht he ha =>
          change q s = some p' at hp'
          rw [hu.completes s p hp] at hp'
          cases hp'
          change parse c.ci p.text = _ at ht
          rw [hpp] at ht
          have : e0 = e := by
            have := PRes.ok.inj ht
            exact rpn_injective _ _ (Prod.mk.inj this).1
          subst this
          exact ⟨k, w, rfl, he, ha⟩
      cases hv : exVal e1 with
      | none =>
        rw [hv] at h
        cases h
        refine ⟨hp1, ?_⟩
        intro hn n v hd
        obtain ⟨k, w, rfl, hw, ha⟩ := inv n v hd
        rcases hu.typed s p hp with hany | ⟨n0, v0, hd0⟩
        · rw [hany] at ha
          cases ha
          exact den_mono _ _ _ _ (hs1 hn k v hw)
        · exfalso
          cases hd0 with
          | num _ _ _ h1 _ => rw [hs] at h1; cases h1
          | quote _ r d rest _ => exact absurd rfl hq
          | par k0 _ p' e r' w0 _ _ _ hp' ht he0 ha0 =>
            rw [hp] at hp'
            cases hp'
            rw [hpp] at ht
            have : e0 = e := by
              have := PRes.ok.inj ht
              exact rpn_injective _ _ (Prod.mk.inj this).1
            subst this
            have := redN_den_const c m k0 e0 e' w0 he1 he0
            subst this
            cases hv
      | some w =>
        rw [hv] at h
        have := exVal_some hv
        subst this
        simp only at h
        cases ha : assign p.ty w with
        | val u =>
          rw [ha] at h
          cases h
          refine ⟨(pl_const _).2 (assign_plain p.ty w u (hu.noVint s p (hu.completes s p hp)) ((pl_const _).1 hp1) ha), ?_⟩
          intro _ n v hd
          obtain ⟨k, w', rfl, hw, ha'⟩ := inv n v hd
          have := den_const_inv _ _ _ _ (hs1 (nu_const _) k w' hw)
          subst this
          rw [ha] at ha'
          cases ha'
          exact .const _ _
        | null =>
          rw [ha] at h
          cases h
          refine ⟨hp1, ?_⟩
          intro _ n v hd
          obtain ⟨k, w', rfl, hw, ha'⟩ := inv n v hd
          have := den_const_inv _ _ _ _ (hs1 (nu_const _) k w' hw)
          subst this
          rw [ha] at ha'
          cases ha'
        | ub => rw [ha] at h; cases h
        | special => rw [ha] at h; cases h
    | err => rw [hpp] at h; cases h
    | fuel => rw [hpp] at h; cases h

theorem symRed_sound (c : Ctx) (q : List Char → Option Par) (hu : Usual c q) (m : ℕ) (ih : ∀ e, PlainEx e → Sound c q e (redN c m e))
    (s : List Char) : Sound c q (.name s) (symRed c (redN c m) s) := by
  by_cases hs : isNumber s = true
  · intro e' h
    simp only [symRed, hs, if_true] at h
    obtain ⟨v, hv, h⟩ := RRes.bind_ok h
    cases h
    refine ⟨(pl_const v).2 (numConst_plain c hu.verilog s v hv), ?_⟩
    intro _ n w hd
    cases hd with
    | num _ _ _ _ h1 =>
      change numConst c s = _ at h1
      rw [hv] at h1
      cases h1
      exact .const n _
    | quote _ r d rest _ => rw [quote_not_number] at hs; cases hs
    | par _ _ _ _ _ _ _ h1 _ _ _ _ _ => rw [hs] at h1; cases h1
  · have hs' : isNumber s = false := by simpa using hs
    by_cases hq : s.head? = some '"'
    · cases s with
      | nil => cases hq
      | cons ch r =>
        simp only [List.head?_cons, Option.some.injEq] at hq
        subst hq
        intro e' h
        rw [symRed, quote_not_number] at h
        simp only [Bool.false_eq_true, if_false] at h
        cases hr : quoted r with
        | none => rw [hr] at h; cases h
        | some dr =>
          obtain ⟨d, rest⟩ := dr
          rw [hr] at h
          cases h
          refine ⟨(pl_const _).2 rfl, ?_⟩
          intro _ n w hd
          cases hd with
          | num _ _ _ h1 _ => rw [quote_not_number] at h1; cases h1
          | quote _ _ d' rest' h1 =>
            rw [hr] at h1
            cases h1
            exact .const n _
          | par _ _ _ _ _ _ _ _ h1 _ _ _ _ => exact absurd rfl h1
    · rw [symRed_name c _ s hs' hq]
      exact nameRed_sound c q hu m ih s hs' hq

mutual
theorem red_sound (c : Ctx) (q : List Char → Option Par) (hu : Usual c q) (m : ℕ) (ih : ∀ e, PlainEx e → Sound c q e (redN c m e)) :
    ∀ (e : Ex), PlainEx e → Sound c q e (red c (redN c m) e)
  | .name s, _ => by
    rw [red_name]
    exact symRed_sound c q hu m ih s
  | .const v, hp => by
    rw [red_const]
    intro e' h
    cases h
    exact ⟨hp, fun _ n v h => h⟩
  | .call f a, hp => by
    rw [red_call]
    intro e' h
    obtain ⟨a', ha, h⟩ := RRes.bind_ok h
    cases hf : c.fn f with
    | none => rw [hf] at h; cases h
    | some g =>
      rw [hf] at h
      obtain ⟨h1, h2⟩ := redArgs_sound c q hu m ih a ((pl_call f a).1 hp) a' ha
      exact callRed_sound c q hu f g hf a a' e' h1 h2 h
  | .arr a, hp => by
    rw [red_arr]
    intro e' h
    obtain ⟨a', ha, h⟩ := RRes.bind_ok h
    cases h
    obtain ⟨h1, h2⟩ := redArgs_sound c q hu m ih a ((pl_arr a).1 hp) a' ha
    refine ⟨(pl_arr a').2 h1, ?_⟩
    intro _ n v hd
    cases hd
  | .un op e, hp => by
    rw [red_un]
    intro e' h
    obtain ⟨e1, he, h⟩ := RRes.bind_ok h
    obtain ⟨h1, h2⟩ := red_sound c q hu m ih e ((pl_un op e).1 hp) e1 he
    have other : RRes.ok (.un [] e1) = .ok e' → PlainEx e' ∧ (noUn e' → ∀ n v, Den (c.with q) n (.un op e) v → Den (c.with q) n e' v) := by
      intro h
      cases h
      exact ⟨(pl_un _ _).2 h1, fun hn => absurd hn (nu_un _ _)⟩
    cases e1 with
    | const x =>
      simp only [unRed, unData] at h
      cases ho : uopOf op with
      | none => rw [ho] at h; cases h
      | some o =>
        rw [ho] at h
        simp only at h
        cases hv : Base.unop o x with
        | val w =>
          rw [hv] at h
          cases h
          refine ⟨(pl_const _).2 (unop_plain o x w hv), ?_⟩
          intro _ n v hd
          cases hd with
          | un _ _ o' _ w' _ ho' he' hv' =>
            rw [ho] at ho'
            cases ho'
            have := den_const_inv _ _ _ _ (h2 (nu_const _) n w' he')
            subst this
            rw [hv] at hv'
            cases hv'
            exact .const n _
        | null => rw [hv] at h; exact other h
        | ub => rw [hv] at h; cases h
        | special => rw [hv] at h; cases h
    | _ => exact other h
  | .bin op a b, hp => by
    rw [red_bin]
    intro e' h
    obtain ⟨a1, ha, h⟩ := RRes.bind_ok h
    obtain ⟨b1, hb, h⟩ := RRes.bind_ok h
    obtain ⟨pa, pb⟩ := (pl_bin _ _ _).1 hp
    obtain ⟨ha1, ha2⟩ := red_sound c q hu m ih a pa a1 ha
    obtain ⟨hb1, hb2⟩ := red_sound c q hu m ih b pb b1 hb
    obtain ⟨h1, h2, h3⟩ := binRed_sound c q hu op a1 b1 e' ha1 hb1 h
    refine ⟨h1, ?_⟩
    intro hn n v hd
    obtain ⟨na, nb⟩ := h2 hn
    obtain ⟨o, x, y, ho, hx, hy, hv⟩ := den_bin_inv _ _ _ _ _ _ hd
    exact h3 n v (.bin n op o a1 b1 x y v ho (ha2 na n x hx) (hb2 nb n y hy) hv)
  | .tern e t f, hp => by
    rw [red_tern]
    intro e' h
    obtain ⟨e1, he, h⟩ := RRes.bind_ok h
    obtain ⟨pe, pt, pf⟩ := (pl_tern _ _ _).1 hp
    obtain ⟨h1, h2⟩ := red_sound c q hu m ih e pe e1 he
    have keep : ternKeep (redN c m) e1 t f = .ok e' →
        PlainEx e' ∧ (noUn e' → ∀ n v, Den (c.with q) n (.tern e t f) v → Den (c.with q) n e' v) := by
      intro h
      simp only [ternKeep] at h
      obtain ⟨te, ht, h⟩ := RRes.bind_ok h
      obtain ⟨fe, hf, h⟩ := RRes.bind_ok h
      cases h
      obtain ⟨t1, t2⟩ := ih t pt te ht
      obtain ⟨f1, f2⟩ := ih f pf fe hf
      refine ⟨(pl_tern _ _ _).2 ⟨h1, t1, f1⟩, ?_⟩
      intro hn n v hd
      obtain ⟨n1, n2, n3⟩ := (nu_tern _ _ _).1 hn
      cases hd with
      | ternT _ _ _ _ w _ hw hnum hb hv => exact .ternT n e1 te fe w v (h2 n1 n w hw) hnum hb (t2 n2 n v hv)
      | ternF _ _ _ _ w _ hw hnum hb hv => exact .ternF n e1 te fe w v (h2 n1 n w hw) hnum hb (f2 n3 n v hv)
    cases hv : exVal e1 with
    | none => rw [hv] at h; exact keep h
    | some w =>
      rw [hv] at h
      have := exVal_some hv
      subst this
      simp only at h
      split at h
      · split at h
        · rename_i hb
          obtain ⟨t1, t2⟩ := red_sound c q hu m ih t pt e' h
          refine ⟨t1, ?_⟩
          intro hn n v hd
          cases hd with
          | ternT _ _ _ _ w' _ hw hnum hb' hv => exact t2 hn n v hv
          | ternF _ _ _ _ w' _ hw hnum hb' hv =>
            have := den_const_inv _ _ _ _ (h2 (nu_const _) n w' hw)
            subst this
            rw [hb] at hb'
            cases hb'
        · rename_i hb
          obtain ⟨f1, f2⟩ := red_sound c q hu m ih f pf e' h
          refine ⟨f1, ?_⟩
          intro hn n v hd
          cases hd with
          | ternT _ _ _ _ w' _ hw hnum hb' hv =>
            have := den_const_inv _ _ _ _ (h2 (nu_const _) n w' hw)
            subst this
            exact absurd hb' hb
          | ternF _ _ _ _ w' _ hw hnum hb' hv => exact f2 hn n v hv
      · exact keep h

theorem redArgs_sound (c : Ctx) (q : List Char → Option Par) (hu : Usual c q) (m : ℕ) (ih : ∀ e, PlainEx e → Sound c q e (redN c m e)) :
    ∀ (a : Args), PlainArgs a → ∀ a', redArgs c (redN c m) a = .ok a' →
      PlainArgs a' ∧ (noUnArgs a' → ∀ n vs, DenArgs (c.with q) n a vs → DenArgs (c.with q) n a' vs)
  | .nil, _, a', h => by
    rw [redArgs_nil] at h
    cases h
    exact ⟨pl_nil, fun _ n vs h => h⟩
  | .cons e r, hp, a', h => by
    rw [redArgs_cons] at h
    obtain ⟨e1, he, h⟩ := RRes.bind_ok h
    obtain ⟨r1, hr, h⟩ := RRes.bind_ok h
    cases h
    obtain ⟨pe, pr⟩ := (pl_cons _ _).1 hp
    obtain ⟨h1, h2⟩ := red_sound c q hu m ih e pe e1 he
    obtain ⟨h3, h4⟩ := redArgs_sound c q hu m ih r pr r1 hr
    refine ⟨(pl_cons _ _).2 ⟨h1, h3⟩, ?_⟩
    intro hn n vs hd
    obtain ⟨n1, n2⟩ := (nu_cons _ _).1 hn
    cases hd with
    | cons _ _ _ v vs' hv hvs => exact .cons n e1 r1 v vs' (h2 n1 n v hv) (h4 n2 n vs' hvs)
end

theorem redN_sound (c : Ctx) (q : List Char → Option Par) (hu : Usual c q) : ∀ (m : ℕ) (e : Ex), PlainEx e → Sound c q e (redN c m e)
  | 0, e, _ => by intro e' h; cases h
  | m + 1, e, hp => red_sound c q hu m (redN_sound c q hu m) e hp

/-- C40: reducing a text against a partly known scope gives an expression that has the value of the text in every completion of the
scope in which the text has a value.  `hn`: no sign is left (see `unary_copy_wrong`); `Usual`: not Verilog mode, typed parameters known
(see `swap_class_wrong`, `typed_partial_wrong`). -/
theorem reduce_completion_partial (c : Ctx) (q : List Char → Option Par) (hu : Usual c q) (m : ℕ) (text : List Char) (e : Ex) (r : List Char)
    (ht : parse c.ci text = .ok (rpn e, r)) (l : List Tok) (hl : reduce c m (rpn e) = .ok l) :
    ∃ e', l = rpn e' ∧ (noUn e' → ∀ n v, Den (c.with q) n e v → Den (c.with q) n e' v) := by
  rw [reduce_rpn] at hl
  obtain ⟨e', he, h⟩ := RRes.bind_ok hl
  cases h
  exact ⟨e', rfl, (redN_sound c q hu m e (parse_plain c.ci text e r ht) e' he).2⟩

/-- C40: so reducing the result against the completed scope delivers the same constant as reducing the text against it -/
theorem reduce_twice_partial (c : Ctx) (q : List Char → Option Par) (hu : Usual c q) (hs : NoStringPar (c.with q)) (m n : ℕ)
    (text : List Char) (e : Ex) (r : List Char) (ht : parse c.ci text = .ok (rpn e, r)) (e' : Ex) (hl : reduce c m (rpn e) = .ok (rpn e'))
    (hn : noUn e') (v : Base.Val) (hv : reduce (c.with q) (n + 1) (rpn e) = .ok [.const v]) :
    reduce (c.with q) (n + 1) (rpn e') = .ok [.const v] := by
  obtain ⟨e1, h1, h2⟩ := reduce_completion_partial c q hu m text e r ht _ hl
  have := rpn_injective _ _ h1
  subst this
  exact reduce_complete _ _ _ _ (h2 hn n v ((reduce_value _ hs n e v).1 hv))

end Gnucap.Expr
