import Verif.CondModel
import Mathlib.Data.List.Perm.Basic

/-!
# C64: each analysis uses the function meant for it

Specification: `given m` is the function the clauses entered under `m` name, the last one if there are several; each analysis
takes the first of a fixed list of modes that was given.
-/
set_option linter.unusedSimpArgs false
namespace Gnucap.Cond

/-- what each analysis is to use -/
def wanted (isSource : Bool) (given : Mode → Option Fn) : Mode → Option Fn
  | .op => (given .op <|> given .dc <|> given .none <|> given .tran) <|> some .zero
  | .dc => (given .dc <|> given .none <|> given .op <|> given .tran) <|> some .zero
  | .tran => (given .tran <|> given .none <|> given .dc <|> given .op) <|> some .zero
  | .fourier => given .fourier <|> (given .tran <|> given .none <|> given .dc <|> given .op) <|> some .zero
  | .ac => given .ac <|> (given .none).filter (fun f => !isSource || f.acToo) <|> some .zero
  | .none => given .none

/-- `_set` says which of `_func` are there, while clauses are read -/
def Sel.Ok (s : Sel) : Prop := ∀ m, s.set m = (s.func m).isSome

theorem ok_empty : Sel.empty.Ok := fun _ => rfl

theorem ok_clause (b : Bool) (s : Sel) (c : Clause) (h : s.Ok) : (s.clause b c).Ok := by
  intro m
  simp only [Sel.clause, Function.update_apply]
  split
  · rfl
  · exact h m

theorem ok_fold (b : Bool) (cs : List Clause) (s : Sel) (h : s.Ok) : (cs.foldl (Sel.clause b) s).Ok := by
  induction cs generalizing s with
  | nil => exact h
  | cons c r ih => exact ih _ (ok_clause b s c h)

/-- The rules give every analysis what is wanted, if the function without a keyword is a behavioural function. -/
theorem rules_spec (b : Bool) (s : Sel) (h : s.Ok) (ha : ∀ f, s.func .none = some f → f.action = true) :
    ∃ r, s.rules b = some r ∧ ∀ m, r.func m = wanted b s.func m := by
  obtain ⟨func, set⟩ := s
  have hs : set = fun m => (func m).isSome := funext h
  subst hs
  simp only at ha
  rcases hn : func .none with _ | n <;> rcases hac : func .ac with _ | ac <;> rcases ho : func .op with _ | o <;>
    rcases hd : func .dc with _ | d <;> rcases ht : func .tran with _ | t <;> rcases hf : func .fourier with _ | f
  all_goals
    simp only [hn, Option.some.injEq, forall_eq', reduceCtorEq, false_implies, implies_true] at ha
    cases b <;>
    simp [Sel.rules, Sel.default, Sel.zeroed, Sel.acToo, Function.update_apply, hn, hac, ho, hd, ht, hf, ha] <;>
    (intro m; cases m <;> simp [wanted, hn, hac, ho, hd, ht, hf, Option.filter])
  all_goals
    cases hh : n.acToo <;> simp [hh, Function.update_apply, hn, hac, ho, hd, ht, hf]

/-- the function of the last clause with keyword `m` -/
def lastOf (m : Mode) (cs : List Clause) : Option Fn := (cs.reverse.find? fun c => c.mode = m).map fun c => c.fn.getD .zero

/-- Spice: in a source a plain number without keyword is the DC value, if none was given before -/
def relabel : List Clause → List Clause
  | [] => []
  | c :: r =>
    if c.mode = .dc then c :: r
    else if c.mode = .none ∧ ∃ f, c.fn = some f ∧ f.isValue = true then ⟨.dc, c.fn⟩ :: r
    else c :: relabel r

/-- the function the clauses name for `m` -/
def given (isSource : Bool) (cs : List Clause) (m : Mode) : Option Fn := lastOf m (if isSource then relabel cs else cs)

theorem lastOf_append (m : Mode) (a b : List Clause) : lastOf m (a ++ b) = (lastOf m b <|> lastOf m a) := by
  simp only [lastOf, List.reverse_append, List.find?_append]
  cases List.find? (fun c => decide (c.mode = m)) b.reverse <;> simp

theorem lastOf_cons (m : Mode) (c : Clause) (r : List Clause) :
    lastOf m (c :: r) = (lastOf m r <|> if c.mode = m then some (c.fn.getD .zero) else none) := by
  rw [← List.singleton_append, lastOf_append]
  congr 1
  by_cases h : c.mode = m <;> simp [lastOf, h]

theorem fold_plain (b : Bool) (cs : List Clause) (s : Sel) (h : ∀ (s' : Sel) (c : Clause), c ∈ cs → (s.set .dc = true → s'.set .dc = true) →
    s'.modeOf b c = c.mode) (m : Mode) :
    (cs.foldl (Sel.clause b) s).func m = (lastOf m cs <|> s.func m) := by
  induction cs generalizing s with
  | nil => simp [lastOf]
  | cons c r ih =>
    have hm : s.modeOf b c = c.mode := h s c (by simp) id
    have hstep : (s.clause b c).set .dc = true ∨ (s.set .dc = true → (s.clause b c).set .dc = true) := by
      right; intro hh; simp only [Sel.clause, Function.update_apply]; split <;> simp [hh]
    rw [List.foldl_cons, ih]
    · rw [lastOf_cons]
      simp only [Sel.clause, hm, Function.update_apply]
      rcases eq_or_ne c.mode m with e | e
      · simp [e]
      · simp [e, Ne.symm e]
    · intro s' c' hc' hs'
      refine h s' c' (List.mem_cons_of_mem _ hc') fun hh => hs' ?_
      simp only [Sel.clause, Function.update_apply]; split <;> simp [hh]

theorem fold_source (cs : List Clause) (s : Sel) (m : Mode) :
    (cs.foldl (Sel.clause true) s).func m = (lastOf m (if s.set .dc then cs else relabel cs) <|> s.func m) := by
  induction cs generalizing s with
  | nil => simp [lastOf, relabel]
  | cons c r ih =>
    by_cases hs : s.set .dc = true
    · refine (fold_plain true (c :: r) s ?_ m).trans (by rw [if_pos hs])
      intro s' c' _ h
      simp [Sel.modeOf, h hs]
    · rw [Bool.not_eq_true] at hs
      rw [List.foldl_cons, ih]
      simp only [hs, Bool.false_eq_true, if_false]
      by_cases hd : c.mode = .dc
      · have hm : s.modeOf true c = .dc := by simp [Sel.modeOf, hd]
        simp only [relabel, hd, if_true, Sel.clause, hm, Function.update_self, lastOf_cons, Function.update_apply]
        rcases eq_or_ne m Mode.dc with e | e
        · simp [e]
        · simp [e, Ne.symm e]
      · by_cases hp : c.mode = .none ∧ ∃ f, c.fn = some f ∧ f.isValue = true
        · obtain ⟨h1, f, h2, h3⟩ := hp
          have hm : s.modeOf true c = .dc := by simp [Sel.modeOf, h1, hs, h2, h3]
          have hr : relabel (c :: r) = ⟨.dc, c.fn⟩ :: r := by simp [relabel, h1, h2, h3]
          simp only [hr, Sel.clause, hm, Function.update_self, lastOf_cons, Function.update_apply, if_true]
          rcases eq_or_ne m Mode.dc with e | e
          · simp [e]
          · simp [e, Ne.symm e]
        · have hm : s.modeOf true c = c.mode := by
            simp only [Sel.modeOf]
            split
            · rename_i h
              exfalso
              apply hp
              simp only [Bool.true_and, Bool.and_eq_true, decide_eq_true_eq] at h
              refine ⟨h.1.1, ?_⟩
              cases hfn : c.fn with
              | none => simp [hfn] at h
              | some f => exact ⟨f, rfl, by simpa [hfn] using h.2⟩
            · rfl
          have hr : relabel (c :: r) = c :: relabel r := by rw [relabel, if_neg hd, if_neg hp]
          have hs2 : (s.clause true c).set .dc = false := by
            simp only [Sel.clause, hm, Function.update_apply]
            rw [if_neg (Ne.symm hd)]; exact hs
          rw [hs2, hr, lastOf_cons]
          simp only [Bool.false_eq_true, if_false, Sel.clause, hm, Function.update_apply]
          rcases eq_or_ne c.mode m with e | e
          · simp [e]
          · simp [e, Ne.symm e]

theorem read_given (b : Bool) (cs : List Clause) (m : Mode) : (cs.foldl (Sel.clause b) Sel.empty).func m = given b cs m := by
  cases b
  · refine (fold_plain false cs _ (fun s c _ _ => by simp [Sel.modeOf]) m).trans ?_
    simp [given, Sel.empty]
  · refine (fold_source cs _ m).trans ?_
    simp [given, Sel.empty]

theorem given_action (b : Bool) (cs : List Clause) (ha : ∀ c ∈ cs, ∀ f, c.fn = some f → f.action = true) (m : Mode) (f : Fn)
    (hf : given b cs m = some f) : f.action = true := by
  have hmem : ∀ (l : List Clause), (∀ c ∈ l, ∀ f, c.fn = some f → f.action = true) → ∀ m f, lastOf m l = some f → f.action = true := by
    intro l hl m f hf
    simp only [lastOf, Option.map_eq_some_iff] at hf
    obtain ⟨c, hc, rfl⟩ := hf
    have := List.mem_of_find?_eq_some hc
    rw [List.mem_reverse] at this
    cases hfn : c.fn with
    | none => rfl
    | some f => exact hl c this f hfn
  have hrel : ∀ l : List Clause, (∀ c ∈ l, ∀ f, c.fn = some f → f.action = true) → ∀ c ∈ relabel l, ∀ f, c.fn = some f → f.action = true := by
    intro l
    induction l with
    | nil => intro _ c hc; simp [relabel] at hc
    | cons c r ih =>
      intro hl
      rw [relabel]
      split
      · exact hl
      · split
        · intro c' hc' f hf
          rcases List.mem_cons.1 hc' with rfl | h
          · exact hl c (by simp) f hf
          · exact hl c' (by simp [h]) f hf
        · intro c' hc' f hf
          rcases List.mem_cons.1 hc' with rfl | h
          · exact hl _ (by simp) f hf
          · exact ih (fun c hc => hl c (by simp [hc])) c' h f hf
  rw [given] at hf
  refine hmem _ ?_ m f hf
  split
  · exact hrel cs ha
  · exact ha

/-- C64: whatever the clauses and their order, every analysis uses the function wanted for it. -/
theorem selection (b : Bool) (cs : List Clause) (ha : ∀ c ∈ cs, ∀ f, c.fn = some f → f.action = true) :
    ∃ r, parse b cs = some r ∧ ∀ m, r.func m = wanted b (given b cs) m := by
  have hg : (cs.foldl (Sel.clause b) Sel.empty).func = given b cs := funext (read_given b cs)
  obtain ⟨r, h1, h2⟩ := rules_spec b (cs.foldl (Sel.clause b) Sel.empty) (ok_fold b cs _ ok_empty) (by
    intro f hf
    rw [hg] at hf
    exact given_action b cs ha _ f hf)
  exact ⟨r, h1, fun m => by rw [h2 m, hg]⟩

/-- Every analysis has a function: the assertion at the end (bm_cond.cc:194-196). -/
theorem all_served (b : Bool) (cs : List Clause) (r : Sel) (h : parse b cs = some r)
    (ha : ∀ c ∈ cs, ∀ f, c.fn = some f → f.action = true) (m : Mode) (hm : m ≠ .none) : (r.func m).isSome = true := by
  obtain ⟨r', h1, h2⟩ := selection b cs ha
  rw [h] at h1
  obtain rfl := Option.some.inj h1
  rw [h2 m]
  cases m
  · exact absurd rfl hm
  all_goals
    simp only [wanted]
    generalize given b cs .op = o
    generalize given b cs .dc = d
    generalize given b cs .none = n
    generalize given b cs .tran = t
    generalize given b cs .ac = a
    generalize given b cs .fourier = f
    rcases o with _ | o <;> rcases d with _ | d <;> rcases n with _ | n <;> rcases t with _ | t <;> rcases a with _ | a <;>
      rcases f with _ | f <;> simp

theorem lastOf_unique (m : Mode) (cs : List Clause) (c : Clause) (hc : c ∈ cs) (hm : c.mode = m)
    (hu : ∀ c' ∈ cs, c'.mode = m → c' = c) : lastOf m cs = some (c.fn.getD .zero) := by
  have : (cs.reverse.find? fun c => c.mode = m) = some c := by
    cases hf : cs.reverse.find? fun c => decide (c.mode = m) with
    | none =>
      rw [List.find?_eq_none] at hf
      exact absurd (hf c (by simpa using hc)) (by simp [hm])
    | some c' =>
      have h1 := List.mem_of_find?_eq_some hf
      have h2 := List.find?_some hf
      rw [hu c' (by simpa using h1) (by simpa using h2)]
  simp [lastOf, this]

theorem lastOf_none (m : Mode) (cs : List Clause) (h : ∀ c ∈ cs, c.mode ≠ m) : lastOf m cs = none := by
  have : (cs.reverse.find? fun c => c.mode = m) = none := by
    rw [List.find?_eq_none]; intro c hc; simpa using h c (by simpa using hc)
  simp [lastOf, this]

theorem relabel_id (cs : List Clause) (h : ∀ c ∈ cs, c.mode = .none → ∀ f, c.fn = some f → f.isValue = false) : relabel cs = cs := by
  induction cs with
  | nil => rfl
  | cons c r ih =>
    rw [relabel]
    split
    · rfl
    · split
      · rename_i h2
        obtain ⟨h1, f, h3, h4⟩ := h2
        rw [h c (by simp) h1 f h3] at h4
        exact absurd h4 (by decide)
      · rw [ih fun c' hc' => h c' (by simp [hc'])]

/-- The usual line of Spice, `dc a  f(...)  ac b` in whatever order: `a` in DC and at the operating point, `f` in transient and
Fourier, `b` in AC. -/
theorem spice_source (cs : List Clause) (a f b : Fn) (hcs : ∀ c, c ∈ cs ↔ c = ⟨.dc, some a⟩ ∨ c = ⟨.none, some f⟩ ∨ c = ⟨.ac, some b⟩)
    (hf : f.isValue = false) (ha : a.action = true ∧ f.action = true ∧ b.action = true) :
    ∃ r, parse true cs = some r ∧ r.func .op = some a ∧ r.func .dc = some a ∧ r.func .tran = some f ∧
      r.func .fourier = some f ∧ r.func .ac = some b := by
  obtain ⟨r, h1, h2⟩ := selection true cs (by
    intro c hc g hg
    rcases (hcs c).1 hc with rfl | rfl | rfl <;> obtain rfl := Option.some.inj hg
    · exact ha.1
    · exact ha.2.1
    · exact ha.2.2)
  have hr : relabel cs = cs := relabel_id cs (by
    intro c hc hm g hg
    rcases (hcs c).1 hc with rfl | rfl | rfl
    · exact absurd hm (by simp)
    · obtain rfl := Option.some.inj hg; exact hf
    · exact absurd hm (by simp))
  have g : ∀ m, given true cs m = lastOf m cs := fun m => by rw [given, if_pos rfl, hr]
  have gd : given true cs .dc = some a := by
    rw [g]; refine lastOf_unique _ cs ⟨.dc, some a⟩ ((hcs _).2 (by simp)) rfl fun c hc hm => ?_
    rcases (hcs c).1 hc with rfl | rfl | rfl <;> first | rfl | exact absurd hm (by simp)
  have gn : given true cs .none = some f := by
    rw [g]; refine lastOf_unique _ cs ⟨.none, some f⟩ ((hcs _).2 (by simp)) rfl fun c hc hm => ?_
    rcases (hcs c).1 hc with rfl | rfl | rfl <;> first | rfl | exact absurd hm (by simp)
  have ga : given true cs .ac = some b := by
    rw [g]; refine lastOf_unique _ cs ⟨.ac, some b⟩ ((hcs _).2 (by simp)) rfl fun c hc hm => ?_
    rcases (hcs c).1 hc with rfl | rfl | rfl <;> first | rfl | exact absurd hm (by simp)
  have gz : ∀ m, m ≠ .dc → m ≠ .none → m ≠ .ac → given true cs m = none := by
    intro m m1 m2 m3
    rw [g]; refine lastOf_none _ cs fun c hc hm => ?_
    rcases (hcs c).1 hc with rfl | rfl | rfl
    · exact m1 hm.symm
    · exact m2 hm.symm
    · exact m3 hm.symm
  refine ⟨r, h1, ?_, ?_, ?_, ?_, ?_⟩ <;> rw [h2] <;>
    simp [wanted, gd, gn, ga, gz .op, gz .tran, gz .fourier]

/-- An element that is not a source, with a single function: all analyses use it. -/
theorem single_element (f : Fn) (hf : f.action = true) :
    ∃ r, parse false [⟨.none, some f⟩] = some r ∧ ∀ m, r.func m = some f := by
  obtain ⟨r, h1, h2⟩ := selection false [⟨.none, some f⟩] (by simpa using hf)
  refine ⟨r, h1, fun m => ?_⟩
  rw [h2 m]
  cases m <;> simp [wanted, given, lastOf, Option.filter]

/-- A source with a single function of time has nothing in AC. -/
theorem single_source (f : Fn) (hf : f.action = true) (ht : f.acToo = false) :
    ∃ r, parse true [⟨.none, some f⟩] = some r ∧ r.func .ac = some .zero ∧ ∀ m, m ≠ .none → m ≠ .ac → r.func m = some f := by
  obtain ⟨r, h1, h2⟩ := selection true [⟨.none, some f⟩] (by simpa using hf)
  cases hv : f.isValue
  · have hr : relabel [⟨.none, some f⟩] = [⟨.none, some f⟩] := by simp [relabel, hv]
    refine ⟨r, h1, by rw [h2]; simp [wanted, given, hr, lastOf, Option.filter, ht], fun m m1 m2 => ?_⟩
    rw [h2 m]
    cases m <;> simp [wanted, given, hr, lastOf] at m1 m2 ⊢
  · have hr : relabel [⟨.none, some f⟩] = [⟨.dc, some f⟩] := by simp [relabel, hv]
    refine ⟨r, h1, by rw [h2]; simp [wanted, given, hr, lastOf], fun m m1 m2 => ?_⟩
    rw [h2 m]
    cases m <;> simp [wanted, given, hr, lastOf] at m1 m2 ⊢

/-! ## writing and reading back -/

theorem default_set (s : Sel) (m f : Mode) : (s.default m f).set = s.set := by
  simp only [Sel.default]; split <;> rfl

theorem zeroed_set (s : Sel) (m : Mode) : (s.zeroed m).set = s.set := by
  simp only [Sel.zeroed]; split <;> rfl

theorem rules_set (b : Bool) (s r : Sel) (hr : s.rules b = some r) : r.set = s.set := by
  simp only [Sel.rules, Option.map_eq_some_iff] at hr
  obtain ⟨q, -, rfl⟩ := hr
  rw [zeroed_set]
  have e : ∀ (c : Bool) (t : Sel) (f : Mode → Option Fn), (if c = true then ({ t with func := f } : Sel) else t).set = t.set := by
    intro c t f; cases c <;> rfl
  rw [e, e]
  simp only [default_set, zeroed_set]

theorem wanted_given (b : Bool) (g : Mode → Option Fn) (m : Mode) (h : (g m).isSome = true) : wanted b g m = g m := by
  obtain ⟨f, hf⟩ := Option.isSome_iff_exists.1 h
  cases m <;> simp [wanted, hf]

theorem mem_print (s : Sel) (c : Clause) : c ∈ s.print ↔ s.set c.mode = true ∧ c.fn = s.func c.mode := by
  simp only [Sel.print, List.mem_filterMap]
  constructor
  · rintro ⟨m, -, h⟩
    split at h
    · rename_i hs
      obtain rfl := Option.some.inj h
      exact ⟨hs, rfl⟩
    · exact absurd h (by simp)
  · rintro ⟨h1, h2⟩
    refine ⟨c.mode, by cases c.mode <;> simp, ?_⟩
    rw [if_pos h1, ← h2]

/-- C64, round trip: what is written out selects the same functions when it is read again, unless it is a source with a plain
number beside a DC value. -/
theorem print_parse_partial (b : Bool) (cs : List Clause) (ha : ∀ c ∈ cs, ∀ f, c.fn = some f → f.action = true) (r : Sel)
    (hr : parse b cs = some r) (hv : b = true → ∀ f, given b cs .none = some f → f.isValue = false) :
    ∃ r', parse b r.print = some r' ∧ ∀ m, r'.func m = r.func m := by
  obtain ⟨r0, h1, h2⟩ := selection b cs ha
  rw [hr] at h1
  obtain rfl := Option.some.inj h1
  have hok := ok_fold b cs _ ok_empty
  have hset : ∀ m, r.set m = (given b cs m).isSome := by
    intro m; rw [rules_set b _ _ hr, hok m, read_given]
  have hfun : ∀ m, r.set m = true → r.func m = given b cs m := by
    intro m hm; rw [h2 m]; exact wanted_given b _ m (by rw [← hset m]; exact hm)
  have hpm : ∀ c, c ∈ r.print ↔ (given b cs c.mode).isSome = true ∧ c.fn = given b cs c.mode := by
    intro c; rw [mem_print, hset]
    constructor
    · rintro ⟨a, e⟩; exact ⟨a, by rw [e, hfun _ (by rw [hset]; exact a)]⟩
    · rintro ⟨a, e⟩; exact ⟨a, by rw [e, hfun _ (by rw [hset]; exact a)]⟩
  have hgp : ∀ m, given b r.print m = given b cs m := by
    intro m
    have hrel : (if b = true then relabel r.print else r.print) = r.print := by
      cases b
      · rfl
      · refine (if_pos rfl).trans (relabel_id _ ?_)
        intro c hc hm f hf
        have := ((hpm c).1 hc).2
        rw [hm, hf] at this
        exact hv rfl f this.symm
    rw [given, hrel]
    cases hg : given b cs m with
    | none =>
      refine lastOf_none m _ fun c hc hm => ?_
      have := ((hpm c).1 hc).1
      rw [hm, hg] at this
      exact absurd this (by simp)
    | some f =>
      refine lastOf_unique m _ ⟨m, some f⟩ ((hpm _).2 ⟨by simp [hg], hg.symm⟩) rfl fun c hc hm => ?_
      have := ((hpm c).1 hc).2
      rw [hm, hg] at this
      rcases c with ⟨cm, cf⟩
      simp only at hm this
      rw [hm, this]
  obtain ⟨r', h3, h4⟩ := selection b r.print (by
    intro c hc f hf
    have := ((hpm c).1 hc).2
    rw [hf] at this
    exact given_action b cs ha _ f this.symm)
  refine ⟨r', h3, fun m => ?_⟩
  rw [h4 m, h2 m, show given b r.print = given b cs from funext hgp]

/-! ## defects -/

/-- `V1 1 0 dc 5 7`, written as `7 DC 5`: the 7 has become the DC value, and is then overwritten. -/
theorem plain_value_lost :
    ∃ (cs : List Clause) (r r' : Sel) (five seven : Fn), five ≠ seven ∧ parse true cs = some r ∧ parse true r.print = some r' ∧
      r.func .tran = some seven ∧ r'.func .tran = some five := by
  refine ⟨[⟨.dc, some ⟨5, true, true, false⟩⟩, ⟨.none, some ⟨7, true, true, false⟩⟩], _, _, ⟨5, true, true, false⟩,
    ⟨7, true, true, false⟩, by decide, rfl, rfl, rfl, rfl⟩

/-- A source whose function is a logic gate: the gate is taken for a behavioural function. -/
theorem gate_in_source : parse true [⟨.none, some ⟨1, false, false, false⟩⟩] = none := rfl

/-! ## examples -/

example : ∃ r, parse true [⟨.ac, some ⟨3, true, true, false⟩⟩, ⟨.none, some ⟨2, false, true, false⟩⟩, ⟨.dc, some ⟨1, true, true, false⟩⟩] = some r ∧
    r.func .op = some ⟨1, true, true, false⟩ ∧ r.func .dc = some ⟨1, true, true, false⟩ ∧ r.func .tran = some ⟨2, false, true, false⟩ ∧
    r.func .fourier = some ⟨2, false, true, false⟩ ∧ r.func .ac = some ⟨3, true, true, false⟩ :=
  spice_source _ _ _ _ (by intro c; simp only [List.mem_cons, List.not_mem_nil, or_false]; tauto) rfl ⟨rfl, rfl, rfl⟩

/-- `tran 4 op 2 four 9`, written and read back -/
example : ∃ r r', parse true [⟨.tran, some ⟨4, true, true, false⟩⟩, ⟨.op, some ⟨2, true, true, false⟩⟩, ⟨.fourier, some ⟨9, false, true, false⟩⟩] = some r ∧
    parse true r.print = some r' ∧ r'.func .dc = some ⟨2, true, true, false⟩ ∧ r'.func .fourier = some ⟨9, false, true, false⟩ :=
  ⟨_, _, rfl, rfl, rfl, rfl⟩

end Gnucap.Cond
