import Verif.TimerModel
import Mathlib.Algebra.Order.Ring.Rat
import Mathlib.Algebra.Field.Rat
import Mathlib.Tactic.Ring
import Mathlib.Tactic.Linarith
import Mathlib.Tactic.NormNum

/-!
# C107: the times shown
-/
namespace Gnucap.Timer.Props
open Gnucap.Timer

variable {F : Type _} [Field F] [LinearOrder F] [IsStrictOrderedRing F]

section basic
omit [LinearOrder F] [IsStrictOrderedRing F]

omit [Field F] in
theorem set_self (s : S F) (k : Tm) (x : T F) : (s.set k x).tm k = x := by simp [S.set]

omit [Field F] in
theorem set_ne (s : S F) {k j : Tm} (x : T F) (h : j ≠ k) : (s.set k x).tm j = s.tm j := by simp [S.set, h]

omit [Field F] in
/-- a timer that is not running starts -/
theorem start_ok (clk : ℕ → F) (k : Tm) (s : S F) (h : (s.tm k).running = false) :
    ∃ s', s.start clk k = some s' ∧ s'.tm k = { s.tm k with ref := clk s.n, running := true } ∧ (∀ j, j ≠ k → s'.tm j = s.tm j) ∧
      s'.n = s.n + 1 ∧ s'.shown = s.shown ∧ s'.acct = s.acct := by
  refine ⟨{ s.set k { s.tm k with ref := clk s.n, running := true } with n := s.n + 1 }, ?_, ?_, ?_, ?_, ?_, ?_⟩
  · rw [S.start, h]; rfl
  · exact set_self s k _
  · intro j hj; exact set_ne s _ hj
  · rfl
  · rfl
  · rfl

/-- `reset().start()` always works -/
theorem again_ok (clk : ℕ → F) (k : Tm) (s : S F) :
    ∃ s', s.again clk k = some s' ∧ s'.tm k = ⟨clk s.n, 0, (s.tm k).total, true⟩ ∧ (∀ j, j ≠ k → s'.tm j = s.tm j) ∧
      s'.n = s.n + 1 ∧ s'.shown = s.shown ∧ s'.acct = s.acct := by
  obtain ⟨s', h1, h2, h3, h4, h5, h6⟩ := start_ok clk k (s.reset k) (by rw [S.reset, set_self]; rfl)
  refine ⟨s', h1, ?_, ?_, h4, h5, h6⟩
  · rw [h2, S.reset, set_self]; rfl
  · intro j hj; rw [h3 j hj, S.reset, set_ne s _ hj]

theorem stop_ne (clk : ℕ → F) (k : Tm) (s : S F) {j : Tm} (h : j ≠ k) : (s.stop clk k).tm j = s.tm j := by
  rw [S.stop]
  split_ifs
  · exact set_ne s _ h
  · rfl

theorem stop_off (clk : ℕ → F) (k : Tm) (s : S F) : ((s.stop clk k).tm k).running = false := by
  rw [S.stop]
  split_ifs with h
  · show ((s.set k _).tm k).running = false
    rw [set_self]
  · simpa using h

theorem stop_on (clk : ℕ → F) (k : Tm) (s : S F) (h : (s.tm k).running = true) :
    (s.stop clk k).tm k = ⟨0, (s.tm k).last + (clk s.n - (s.tm k).ref), (s.tm k).total + (clk s.n - (s.tm k).ref), false⟩ ∧
      (s.stop clk k).n = s.n + 1 := by
  rw [S.stop, if_pos h]
  exact ⟨set_self s k _, rfl⟩

theorem stop_shown (clk : ℕ → F) (k : Tm) (s : S F) : (s.stop clk k).shown = s.shown := by
  rw [S.stop]; split_ifs <;> rfl

theorem stop_n (clk : ℕ → F) (k : Tm) (s : S F) : s.n ≤ (s.stop clk k).n := by
  rw [S.stop]; split_ifs
  · exact Nat.le_succ _
  · exact le_rfl

end basic

/-! ## Phases -/

/-- all a phase can leave changed -/
def Inner (j : Tm) : Prop := j = .setUp ∨ j = .order ∨ ∃ i, j = .part i

omit [LinearOrder F] [IsStrictOrderedRing F] in
theorem phases_ok (clk : ℕ → F) (l : List Ph) (s : S F) (h : (s.tm .setUp).running = false) (h' : ∀ i, (s.tm (.part i)).running = false) :
    ∃ s', s.phases clk l = some s' ∧ (∀ j, ¬ Inner j → s'.tm j = s.tm j) ∧ s'.shown = s.shown := by
  induction l generalizing s with
  | nil => exact ⟨s, rfl, fun _ _ => rfl, rfl⟩
  | cons p l ih =>
    have hp : (s.tm p.tm).running = false := by
      rw [Ph.tm]
      cases p.part with
      | none => exact h
      | some i => exact h' i
    have hin : Inner p.tm := by
      rw [Ph.tm]
      cases p.part with
      | none => exact Or.inl rfl
      | some i => exact Or.inr (Or.inr ⟨i, rfl⟩)
    obtain ⟨s1, e1, e2, e3, e4, e5, -⟩ := start_ok clk p.tm s hp
    rw [S.phases, e1, Option.bind_some]
    cases p.throws with
    | true => exact ⟨s1, rfl, fun j hj => e3 j (fun e => hj (e ▸ hin)), e5⟩
    | false =>
      have off : ∀ j, (s.tm j).running = false → ((s1.stop clk p.tm).tm j).running = false := by
        intro j hj
        by_cases e : j = p.tm
        · rw [e]; exact stop_off clk p.tm s1
        · rw [stop_ne clk p.tm s1 e, e3 j e, hj]
      obtain ⟨s', f1, f2, f3⟩ := ih (s1.stop clk p.tm) (off _ h) (fun i => off _ (h' i))
      refine ⟨s', by simpa using f1, fun j hj => ?_, ?_⟩
      · have e : j ≠ p.tm := fun e => hj (e ▸ hin)
        rw [f2 j hj, stop_ne clk p.tm s1 e, e3 j e]
      · rw [f3, stop_shown, e5]

/-- the bounds kept while a simulation runs: the parts fit into the time since the start -/
structure Fits (clk : ℕ → F) (s : S F) : Prop where
  run : (s.tm .total).running = true
  last : ∑ i, (s.tm (.part i)).last ≤ (s.tm .total).last + (clk s.n - (s.tm .total).ref)
  total : ∑ i, (s.tm (.part i)).total ≤ (s.tm .total).total + (clk s.n - (s.tm .total).ref)

/-- the bounds between commands -/
structure Rest (s : S F) : Prop where
  run : (s.tm .total).running = false
  last : ∑ i, (s.tm (.part i)).last ≤ (s.tm .total).last
  total : ∑ i, (s.tm (.part i)).total ≤ (s.tm .total).total

omit [LinearOrder F] [IsStrictOrderedRing F] in
theorem sum_one (f g : Fin 9 → F) (i : Fin 9) (d : F) (h : ∀ j, j ≠ i → g j = f j) (hi : g i = f i + d) : ∑ j, g j = ∑ j, f j + d := by
  have : ∀ j, g j = f j + if j = i then d else 0 := by
    intro j
    by_cases e : j = i
    · rw [e, hi, if_pos rfl]
    · rw [h j e, if_neg e, add_zero]
  rw [Finset.sum_congr rfl fun j _ => this j, Finset.sum_add_distrib]
  simp

/-- a phase keeps the bounds -/
theorem phases_fits (clk : ℕ → F) (hc : Monotone clk) (l : List Ph) (s s' : S F) (h : Fits clk s) (e : s.phases clk l = some s') : Fits clk s' := by
  induction l generalizing s with
  | nil => rw [S.phases] at e; rw [← Option.some.inj e]; exact h
  | cons p l ih =>
    rw [S.phases] at e
    by_cases hr : (s.tm p.tm).running = true
    · rw [S.start, if_pos hr] at e; cases e
    have hp : (s.tm p.tm).running = false := by simpa using hr
    obtain ⟨s1, e1, e2, e3, e4, e5, -⟩ := start_ok clk p.tm s hp
    rw [e1, Option.bind_some] at e
    have ht : Tm.total ≠ p.tm := by
      rw [Ph.tm]; cases p.part <;> exact fun h => by cases h
    have hl : ∀ j, (s1.tm j).last = (s.tm j).last ∧ (s1.tm j).total = (s.tm j).total := by
      intro j
      by_cases ej : j = p.tm
      · rw [ej, e2]; exact ⟨rfl, rfl⟩
      · rw [e3 j ej]; exact ⟨rfl, rfl⟩
    have m1 : clk s.n ≤ clk (s.n + 1) := hc (Nat.le_succ _)
    have m2 : clk (s.n + 1) ≤ clk (s.n + 2) := hc (Nat.le_succ _)
    have f1 : Fits clk s1 := by
      refine ⟨by rw [e3 _ ht]; exact h.run, ?_, ?_⟩
      · simp only [(hl _).1, e3 _ ht, e4]
        have := h.last
        linarith
      · simp only [(hl _).2, e3 _ ht, e4]
        have := h.total
        linarith
    cases hth : p.throws with
    | true =>
      rw [hth] at e
      rw [← Option.some.inj e]; exact f1
    | false =>
      rw [hth] at e
      refine ih (s1.stop clk p.tm) ?_ (by simpa using e)
      obtain ⟨g1, g2⟩ := stop_on clk p.tm s1 (by rw [e2])
      have gt : (s1.stop clk p.tm).tm .total = s.tm .total := by rw [stop_ne clk p.tm s1 ht, e3 _ ht]
      have gn : (s1.stop clk p.tm).n = s.n + 2 := by rw [g2, e4]
      refine ⟨by rw [gt]; exact h.run, ?_, ?_⟩
      · rw [gt, gn]
        have hk := h.last
        cases hpart : p.part with
        | none =>
          have : ∀ i : Fin 9, ((s1.stop clk p.tm).tm (.part i)).last = (s.tm (.part i)).last := by
            intro i
            have : Tm.part i ≠ p.tm := by rw [Ph.tm, hpart]; exact fun h => by cases h
            rw [stop_ne clk p.tm s1 this, e3 _ this]
          simp only [this]
          linarith
        | some i =>
          have hpt : p.tm = .part i := by rw [Ph.tm, hpart]
          have := sum_one (fun j => (s.tm (.part j)).last) (fun j => ((s1.stop clk p.tm).tm (.part j)).last) i (clk (s.n + 1) - clk s.n) (by
            intro j hj
            have : Tm.part j ≠ p.tm := by rw [hpt]; exact fun h => hj (by injection h)
            show ((s1.stop clk p.tm).tm (.part j)).last = _
            rw [stop_ne clk p.tm s1 this, e3 _ this]) (by
            show ((s1.stop clk p.tm).tm (.part i)).last = _
            rw [← hpt, g1, e2, e4])
          simp only [this]
          linarith
      · rw [gt, gn]
        have hk := h.total
        cases hpart : p.part with
        | none =>
          have : ∀ i : Fin 9, ((s1.stop clk p.tm).tm (.part i)).total = (s.tm (.part i)).total := by
            intro i
            have : Tm.part i ≠ p.tm := by rw [Ph.tm, hpart]; exact fun h => by cases h
            rw [stop_ne clk p.tm s1 this, e3 _ this]
          simp only [this]
          linarith
        | some i =>
          have hpt : p.tm = .part i := by rw [Ph.tm, hpart]
          have := sum_one (fun j => (s.tm (.part j)).total) (fun j => ((s1.stop clk p.tm).tm (.part j)).total) i (clk (s.n + 1) - clk s.n) (by
            intro j hj
            have : Tm.part j ≠ p.tm := by rw [hpt]; exact fun h => hj (by injection h)
            show ((s1.stop clk p.tm).tm (.part j)).total = _
            rw [stop_ne clk p.tm s1 this, e3 _ this]) (by
            show ((s1.stop clk p.tm).tm (.part i)).total = _
            rw [← hpt, g1, e2, e4])
          simp only [this]
          linarith

/-! ## A simulation -/

theorem fits_other (clk : ℕ → F) (hc : Monotone clk) (s s' : S F) (h : Fits clk s) (ht : s'.tm .total = s.tm .total)
    (hp : ∀ i, s'.tm (.part i) = s.tm (.part i)) (hn : s.n ≤ s'.n) : Fits clk s' := by
  have := hc hn
  refine ⟨by rw [ht]; exact h.run, ?_, ?_⟩
  · simp only [ht, hp]; have := h.last; linarith
  · simp only [ht, hp]; have := h.total; linarith

theorem fits_stop (clk : ℕ → F) (hc : Monotone clk) (k : Tm) (s : S F) (h : Fits clk s) (ht : Tm.total ≠ k) (hp : ∀ i, Tm.part i ≠ k) :
    Fits clk (s.stop clk k) :=
  fits_other clk hc s _ h (stop_ne clk k s ht) (fun i => stop_ne clk k s (hp i)) (stop_n clk k s)

omit [LinearOrder F] [IsStrictOrderedRing F] in
theorem resetTimers_ok (clk : ℕ → F) (s : S F) :
    ∃ s', s.resetTimers clk = some s' ∧ s'.tm .total = ⟨clk (s.n + 1), 0, (s.tm .total).total, true⟩ ∧
      (∀ i, s'.tm (.part i) = ⟨0, 0, (s.tm (.part i)).total, false⟩) ∧
      (∀ j, j = .get ∨ j = .order ∨ j = .check ∨ (∃ k, j = .kind k) → s'.tm j = s.tm j) ∧ s'.n = s.n + 2 ∧ s'.shown = s.shown := by
  obtain ⟨s1, e1, e2, e3, e4, e5, -⟩ := again_ok clk .setUp s.resetParts
  obtain ⟨s2, f1, f2, f3, f4, f5, -⟩ := again_ok clk .total s1
  have hn : s1.n = s.n + 1 := e4
  refine ⟨s2, by rw [S.resetTimers, e1, Option.bind_some, f1], ?_, ?_, ?_, by rw [f4, hn], by rw [f5, e5]; rfl⟩
  · rw [f2, hn, e3 .total (by decide)]; rfl
  · intro i
    rw [f3 _ (fun h => by cases h), e3 _ (fun h => by cases h)]; rfl
  · rintro j (rfl | rfl | rfl | ⟨k, rfl⟩) <;> rw [f3 _ (fun h => by cases h), e3 _ (fun h => by cases h)] <;> rfl

omit [LinearOrder F] [IsStrictOrderedRing F] in
theorem body_ok (clk : ℕ → F) (b : Body) (s : S F) (h : ∀ i, (s.tm (.part i)).running = false) :
    ∃ s', s.body clk b = some s' ∧ (∀ j, ¬ Inner j → s'.tm j = s.tm j) ∧ s'.shown = s.shown := by
  have hso : ∀ j, ¬ Inner j → j ≠ .setUp ∧ j ≠ .order := fun j hj => ⟨fun e => hj (Or.inl e), fun e => hj (Or.inr (Or.inl e))⟩
  rw [S.body]
  obtain ⟨s1, e1, e2, e3, e4, e5, -⟩ := again_ok clk .order s
  cases b.order with
  | none =>
    show ∃ s', (if b.throws = true then some s else (s.stop clk .setUp).phases clk b.phases) = some s' ∧ _
    cases b.throws with
    | true => exact ⟨s, rfl, fun _ _ => rfl, rfl⟩
    | false =>
      obtain ⟨s', f1, f2, f3⟩ := phases_ok clk b.phases (s.stop clk .setUp) (stop_off _ _ _) (fun i => by
        rw [stop_ne clk _ s (fun h => by cases h)]; exact h i)
      refine ⟨s', by simpa using f1, fun j hj => ?_, by rw [f3, stop_shown]⟩
      rw [f2 j hj, stop_ne clk _ s (hso j hj).1]
  | some t =>
    cases t with
    | true => exact ⟨s1, e1, fun j hj => e3 j (hso j hj).2, e5⟩
    | false =>
      simp only [e1, Option.bind_some]
      cases b.throws with
      | true =>
        refine ⟨s1.stop clk .order, rfl, fun j hj => ?_, by rw [stop_shown, e5]⟩
        rw [stop_ne clk _ s1 (hso j hj).2, e3 j (hso j hj).2]
      | false =>
        obtain ⟨s', f1, f2, f3⟩ := phases_ok clk b.phases ((s1.stop clk .order).stop clk .setUp) (stop_off _ _ _) (fun i => by
          rw [stop_ne clk _ _ (fun h => by cases h), stop_ne clk _ _ (fun h => by cases h), e3 _ (fun h => by cases h)]; exact h i)
        refine ⟨s', by simpa using f1, fun j hj => ?_, by rw [f3, stop_shown, stop_shown, e5]⟩
        rw [f2 j hj, stop_ne clk _ _ (hso j hj).1, stop_ne clk _ _ (hso j hj).2, e3 j (hso j hj).2]

theorem body_fits (clk : ℕ → F) (hc : Monotone clk) (b : Body) (s s' : S F) (h : Fits clk s) (e : s.body clk b = some s') : Fits clk s' := by
  rw [S.body] at e
  obtain ⟨s1, e1, e2, e3, e4, e5, -⟩ := again_ok clk .order s
  have f1 : Fits clk s1 := fits_other clk hc s s1 h (e3 _ (by decide)) (fun i => e3 _ (fun h => by cases h)) (by omega)
  have f2 : Fits clk (s1.stop clk .order) := fits_stop clk hc _ _ f1 (by decide) (fun i h => by cases h)
  cases ho : b.order with
  | none =>
    rw [ho] at e
    simp only at e
    cases ht : b.throws with
    | true => rw [ht] at e; rw [← Option.some.inj e]; exact h
    | false =>
      rw [ht] at e
      exact phases_fits clk hc b.phases _ s' (fits_stop clk hc .setUp _ h (by decide) (fun i h => by cases h)) (by simpa using e)
  | some t =>
    rw [ho] at e
    cases t with
    | true =>
      simp only [e1] at e
      rw [← Option.some.inj e]; exact f1
    | false =>
      simp only [e1, Option.bind_some] at e
      cases ht : b.throws with
      | true => rw [ht] at e; rw [← Option.some.inj e]; exact f2
      | false =>
        rw [ht] at e
        exact phases_fits clk hc b.phases _ s' (fits_stop clk hc .setUp _ f2 (by decide) (fun i h => by cases h)) (by simpa using e)

omit [Field F] [LinearOrder F] [IsStrictOrderedRing F] in
theorem start_n (clk : ℕ → F) (k : Tm) (s s' : S F) (e : s.start clk k = some s') : s.n ≤ s'.n := by
  rw [S.start] at e
  split_ifs at e
  rw [← Option.some.inj e]
  exact Nat.le_succ _

omit [LinearOrder F] [IsStrictOrderedRing F] in
theorem phases_n (clk : ℕ → F) (l : List Ph) (s s' : S F) (e : s.phases clk l = some s') : s.n ≤ s'.n := by
  induction l generalizing s with
  | nil => rw [S.phases] at e; rw [← Option.some.inj e]
  | cons p l ih =>
    rw [S.phases] at e
    obtain ⟨s1, e1, e2⟩ := Option.bind_eq_some_iff.1 e
    have h1 := start_n clk p.tm s s1 e1
    split_ifs at e2
    · rw [← Option.some.inj e2]; exact h1
    · exact h1.trans ((stop_n clk p.tm s1).trans (ih _ e2))

omit [LinearOrder F] [IsStrictOrderedRing F] in
theorem body_n (clk : ℕ → F) (b : Body) (s s' : S F) (e : s.body clk b = some s') : s.n ≤ s'.n := by
  rw [S.body] at e
  obtain ⟨s1, e1, -, -, e4, -⟩ := again_ok clk .order s
  rw [e1] at e
  cases ho : b.order with
  | none =>
    rw [ho] at e
    simp only at e
    split_ifs at e
    · rw [← Option.some.inj e]
    · exact (stop_n clk _ s).trans (phases_n clk _ _ _ e)
  | some t =>
    rw [ho] at e
    cases t with
    | true => simp only at e; rw [← Option.some.inj e]; omega
    | false =>
      simp only [Option.bind_some] at e
      have h1 := stop_n clk .order s1
      have h2 := stop_n clk .setUp (s1.stop clk .order)
      split_ifs at e
      · rw [← Option.some.inj e]; omega
      · have := phases_n clk _ _ _ e
        omega

omit [IsStrictOrderedRing F] in
theorem rest_stop (clk : ℕ → F) (s : S F) (h : Fits clk s) : Rest (s.stop clk .total) := by
  obtain ⟨g1, -⟩ := stop_on clk .total s h.run
  have hp : ∀ i, (s.stop clk .total).tm (.part i) = s.tm (.part i) := fun i => stop_ne clk _ s (fun h => by cases h)
  refine ⟨by rw [g1], ?_, ?_⟩
  · simp only [g1, hp]; exact h.last
  · simp only [g1, hp]; exact h.total

omit [IsStrictOrderedRing F] in
theorem rest_other (s s' : S F) (h : Rest s) (ht : s'.tm .total = s.tm .total) (hp : ∀ i, s'.tm (.part i) = s.tm (.part i)) : Rest s' := by
  refine ⟨by rw [ht]; exact h.run, ?_, ?_⟩
  · simp only [ht, hp]; exact h.last
  · simp only [ht, hp]; exact h.total

omit [LinearOrder F] [IsStrictOrderedRing F] in
theorem kind_inner (k : Kind) : ¬ Inner (.kind k) := by
  rintro (h | h | ⟨i, h⟩) <;> cases h

omit [LinearOrder F] [IsStrictOrderedRing F] in
/-- **C107, simulation**: whatever a simulation does and wherever it throws, the timer of the command and the timer of all simulations have
measured from its start to its end, and no other but those within it are touched. -/
theorem sim_time (clk : ℕ → F) (k : Kind) (b : Body) (s : S F) :
    ∃ s', s.sim clk k b = some s' ∧ s'.shown = s.shown ∧ s'.tm .get = s.tm .get ∧ s'.tm .check = s.tm .check ∧
      (∀ k', k' ≠ k → s'.tm (.kind k') = s.tm (.kind k')) ∧ s.n + 5 ≤ s'.n ∧
      (let a := if k = .four ∨ k = .ac then (s.n + 2, s'.n - 2, s.n + 1, s'.n - 1) else (s.n, s'.n - 1, s.n + 2, s'.n - 2)
       s'.tm (.kind k) = ⟨0, clk a.2.1 - clk a.1, (s.tm (.kind k)).total + (clk a.2.1 - clk a.1), false⟩ ∧
       s'.tm .total = ⟨0, clk a.2.2.2 - clk a.2.2.1, (s.tm .total).total + (clk a.2.2.2 - clk a.2.2.1), false⟩) := by
  rw [S.sim]
  by_cases hk : k = .four ∨ k = .ac
  · simp only [if_pos hk]
    obtain ⟨s1, e1, e2, e3, e4, e5, e6⟩ := resetTimers_ok clk s
    obtain ⟨s2, f1, f2, f3, f4, f5, -⟩ := again_ok clk (.kind k) s1
    obtain ⟨s3, g1, g2, g3⟩ := body_ok clk b s2 (fun i => by rw [f3 _ (fun h => by cases h), e3])
    have gk : s3.tm (.kind k) = ⟨clk (s.n + 2), 0, (s.tm (.kind k)).total, true⟩ := by
      rw [g2 _ (kind_inner k), f2, e5, e4 _ (Or.inr (Or.inr (Or.inr ⟨k, rfl⟩)))]
    have gt : s3.tm .total = ⟨clk (s.n + 1), 0, (s.tm .total).total, true⟩ := by
      rw [g2 _ (by rintro (h | h | ⟨i, h⟩) <;> cases h), f3 _ (fun h => by cases h), e2]
    have gn : s.n + 3 ≤ s3.n := by
      have := body_n clk b s2 s3 g1
      omega
    obtain ⟨h1, h2⟩ := stop_on clk (.kind k) s3 (by rw [gk])
    have ht : ((s3.stop clk (.kind k)).tm .total) = s3.tm .total := stop_ne clk _ s3 (fun h => by cases h)
    obtain ⟨i1, i2⟩ := stop_on clk .total (s3.stop clk (.kind k)) (by rw [ht, gt])
    have hn : ((s3.stop clk (.kind k)).stop clk .total).n = s3.n + 2 := by rw [i2, h2]
    have other : ∀ j, j ≠ .kind k → j ≠ .total → ¬ Inner j → ((s3.stop clk (.kind k)).stop clk .total).tm j = s1.tm j := by
      intro j j1 j2 j3
      rw [stop_ne clk _ _ j2, stop_ne clk _ _ j1, g2 j j3, f3 j j1]
    refine ⟨(s3.stop clk (.kind k)).stop clk .total, by simp only [e1, f1, g1, Option.bind_some, Option.map_some], ?_, ?_, ?_, ?_, ?_, ?_, ?_⟩
    · rw [stop_shown, stop_shown, g3, f5, e6]
    · rw [other _ (fun h => by cases h) (fun h => by cases h) (by rintro (h | h | ⟨i, h⟩) <;> cases h), e4 _ (Or.inl rfl)]
    · rw [other _ (fun h => by cases h) (fun h => by cases h) (by rintro (h | h | ⟨i, h⟩) <;> cases h), e4 _ (Or.inr (Or.inr (Or.inl rfl)))]
    · intro k' hk'
      rw [other _ (fun h => hk' (by injection h)) (fun h => by cases h) (kind_inner k'), e4 _ (Or.inr (Or.inr (Or.inr ⟨k', rfl⟩)))]
    · omega
    · have n2 : s3.n + 2 - 2 = s3.n := by omega
      rw [stop_ne clk _ _ (fun h => by cases h), h1, gk, hn]
      simp only [n2, zero_add]
    · have n1 : s3.n + 2 - 1 = s3.n + 1 := by omega
      rw [i1, ht, gt, hn, h2]
      simp only [n1, zero_add]
  · simp only [if_neg hk]
    obtain ⟨s1, f1, f2, f3, f4, f5, -⟩ := again_ok clk (.kind k) s
    obtain ⟨s2, e1, e2, e3, e4, e5, e6⟩ := resetTimers_ok clk s1
    obtain ⟨s3, g1, g2, g3⟩ := body_ok clk b s2 (fun i => by rw [e3])
    have gk : s3.tm (.kind k) = ⟨clk s.n, 0, (s.tm (.kind k)).total, true⟩ := by
      rw [g2 _ (kind_inner k), e4 _ (Or.inr (Or.inr (Or.inr ⟨k, rfl⟩))), f2]
    have gt : s3.tm .total = ⟨clk (s.n + 2), 0, (s.tm .total).total, true⟩ := by
      rw [g2 _ (by rintro (h | h | ⟨i, h⟩) <;> cases h), e2, f4, f3 _ (fun h => by cases h)]
    have gn : s.n + 3 ≤ s3.n := by
      have := body_n clk b s2 s3 g1
      omega
    obtain ⟨h1, h2⟩ := stop_on clk .total s3 (by rw [gt])
    have ht : ((s3.stop clk .total).tm (.kind k)) = s3.tm (.kind k) := stop_ne clk _ s3 (fun h => by cases h)
    obtain ⟨i1, i2⟩ := stop_on clk (.kind k) (s3.stop clk .total) (by rw [ht, gk])
    have hn : ((s3.stop clk .total).stop clk (.kind k)).n = s3.n + 2 := by rw [i2, h2]
    have other : ∀ j, j ≠ .kind k → j ≠ .total → ¬ Inner j → (j = .get ∨ j = .order ∨ j = .check ∨ (∃ k, j = .kind k)) →
        ((s3.stop clk .total).stop clk (.kind k)).tm j = s.tm j := by
      intro j j1 j2 j3 j4
      rw [stop_ne clk _ _ j1, stop_ne clk _ _ j2, g2 j j3, e4 j j4, f3 j j1]
    refine ⟨(s3.stop clk .total).stop clk (.kind k), by simp only [e1, f1, g1, Option.bind_some, Option.map_some], ?_, ?_, ?_, ?_, ?_, ?_, ?_⟩
    · rw [stop_shown, stop_shown, g3, e6, f5]
    · exact other _ (fun h => by cases h) (fun h => by cases h) (by rintro (h | h | ⟨i, h⟩) <;> cases h) (Or.inl rfl)
    · exact other _ (fun h => by cases h) (fun h => by cases h) (by rintro (h | h | ⟨i, h⟩) <;> cases h) (Or.inr (Or.inr (Or.inl rfl)))
    · intro k' hk'
      exact other _ (fun h => hk' (by injection h)) (fun h => by cases h) (kind_inner k') (Or.inr (Or.inr (Or.inr ⟨k', rfl⟩)))
    · omega
    · have n1 : s3.n + 2 - 1 = s3.n + 1 := by omega
      rw [i1, ht, gk, hn, h2]
      simp only [n1, zero_add]
    · have n2 : s3.n + 2 - 2 = s3.n := by omega
      rw [stop_ne clk _ _ (fun h => by cases h), h1, gt, hn]
      simp only [n2, zero_add]

/-- a simulation leaves the bounds -/
theorem sim_rest (clk : ℕ → F) (hc : Monotone clk) (k : Kind) (b : Body) (s s' : S F) (h : Rest s) (e : s.sim clk k b = some s') : Rest s' := by
  rw [S.sim] at e
  split_ifs at e with hk
  · obtain ⟨s1, e1, e2, e3, e4, e5, e6⟩ := resetTimers_ok clk s
    obtain ⟨s2, f1, f2, f3, f4, f5, -⟩ := again_ok clk (.kind k) s1
    obtain ⟨s3, g1, g2, g3⟩ := body_ok clk b s2 (fun i => by rw [f3 _ (fun h => by cases h), e3])
    simp only [e1, f1, g1, Option.bind_some, Option.map_some] at e
    rw [← Option.some.inj e]
    refine rest_stop clk _ (fits_stop clk hc _ s3 (body_fits clk hc b s2 s3 ?_ g1) (fun h => by cases h) (fun i h => by cases h))
    have m : clk (s.n + 1) ≤ clk (s.n + 3) := hc (by omega)
    have n : s2.n = s.n + 3 := by omega
    refine ⟨by rw [f3 _ (fun h => by cases h), e2], ?_, ?_⟩
    · simp only [f3 _ (show Tm.total ≠ .kind k from fun h => by cases h), f3 _ (show Tm.part _ ≠ .kind k from fun h => by cases h), e2, e3, n,
        Finset.sum_const_zero]
      linarith
    · simp only [f3 _ (show Tm.total ≠ .kind k from fun h => by cases h), f3 _ (show Tm.part _ ≠ .kind k from fun h => by cases h), e2, e3, n]
      have := h.total
      linarith
  · obtain ⟨s1, f1, f2, f3, f4, f5, -⟩ := again_ok clk (.kind k) s
    obtain ⟨s2, e1, e2, e3, e4, e5, e6⟩ := resetTimers_ok clk s1
    obtain ⟨s3, g1, g2, g3⟩ := body_ok clk b s2 (fun i => by rw [e3])
    simp only [e1, f1, g1, Option.bind_some, Option.map_some] at e
    rw [← Option.some.inj e]
    have hf : Fits clk s2 := by
      have m : clk (s1.n + 1) ≤ clk (s1.n + 2) := hc (by omega)
      refine ⟨by rw [e2], ?_, ?_⟩
      · simp only [e2, e3, e5, Finset.sum_const_zero]
        linarith
      · simp only [e2, e3, e5, f3 _ (show Tm.total ≠ .kind k from fun h => by cases h), f3 _ (show Tm.part _ ≠ .kind k from fun h => by cases h)]
        have := h.total
        linarith
    exact rest_other _ _ (rest_stop clk s3 (body_fits clk hc b s2 s3 hf g1)) (stop_ne clk _ _ (fun h => by cases h)) (fun i =>
      stop_ne clk _ _ (fun h => by cases h))

/-! ## Sessions -/

mutual
/-- the command throws nowhere that a file cannot be opened -/
def Calm : Cmd → Prop
  | .sim _ _ => True
  | .get l t => Calms l ∧ t ≠ some .file
  | .incl l t => Calms l ∧ t ≠ some .file
  | .status => True
  | .other t => t ≠ some .file
def Calms : Cmds → Prop
  | .nil => True
  | .cons c l => Calm c ∧ Calms l
end

omit [LinearOrder F] [IsStrictOrderedRing F] in
theorem before_ok (clk : ℕ → F) (s : S F) :
    ∃ s', s.before clk = some s' ∧ (s'.tm .get).running = false ∧ s'.tm .total = s.tm .total ∧ (∀ i, s'.tm (.part i) = s.tm (.part i)) ∧
      s'.shown = s.shown := by
  obtain ⟨s1, e1, e2, e3, e4, e5, -⟩ := again_ok clk .check ((s.stop clk .get).stop clk .check)
  refine ⟨s1, e1, ?_, ?_, ?_, ?_⟩
  · rw [e3 _ (by decide), stop_ne clk _ _ (by decide)]; exact stop_off clk _ s
  · rw [e3 _ (by decide), stop_ne clk _ _ (by decide), stop_ne clk _ _ (by decide)]
  · intro i
    rw [e3 _ (fun h => by cases h), stop_ne clk _ _ (fun h => by cases h), stop_ne clk _ _ (fun h => by cases h)]
  · rw [e5, stop_shown, stop_shown]

omit [LinearOrder F] [IsStrictOrderedRing F] in
/-- after a command that left the timer of `get` off -/
theorem after_ok (clk : ℕ → F) (acct was : Bool) (s : S F) (h : (s.tm .get).running = false) :
    ∃ s', s.after clk acct was = some s' ∧ (s'.tm .get).running = was := by
  have key : ∀ s1 : S F, (s1.tm .get).running = false → ∃ s', (if was then s1.start clk .get else some s1) = some s' ∧ (s'.tm .get).running = was := by
    intro s1 h1
    cases was with
    | false => exact ⟨s1, rfl, h1⟩
    | true =>
      obtain ⟨s2, e1, e2, -⟩ := start_ok clk .get s1 h1
      exact ⟨s2, e1, by rw [e2]⟩
  rw [S.after]
  cases acct with
  | false => exact key s h
  | true =>
    by_cases hr : (s.tm .check).running = true
    · obtain ⟨s2, e1, e2, e3, -⟩ := start_ok clk .check (s.stop clk .check) (stop_off clk _ s)
      simp only [if_true, if_pos hr, e1, Option.map_some, Option.bind_some]
      refine key _ ?_
      show (s2.tm .get).running = false
      rw [e3 _ (by decide), stop_ne clk _ s (by decide), h]
    · simp only [if_true, if_neg hr, Option.bind_some]
      exact key _ h

omit [LinearOrder F] [IsStrictOrderedRing F] in
/-- what `after` leaves alone -/
theorem after_keeps (clk : ℕ → F) (acct was : Bool) (s s' : S F) (e : s.after clk acct was = some s') :
    s'.tm .total = s.tm .total ∧ (∀ i, s'.tm (.part i) = s.tm (.part i)) ∧ s'.shown = s.shown := by
  have key : ∀ s1 : S F, (if was then s1.start clk .get else some s1) = some s' →
      s'.tm .total = s1.tm .total ∧ (∀ i, s'.tm (.part i) = s1.tm (.part i)) ∧ s'.shown = s1.shown := by
    intro s1 h1
    cases was with
    | false => rw [← Option.some.inj h1]; exact ⟨rfl, fun _ => rfl, rfl⟩
    | true =>
      simp only [if_true] at h1
      by_cases hr : (s1.tm .get).running = true
      · rw [S.start, if_pos hr] at h1; cases h1
      · obtain ⟨s2, e1, e2, e3, e4, e5, -⟩ := start_ok clk .get s1 (by simpa using hr)
        rw [e1] at h1
        rw [← Option.some.inj h1]
        exact ⟨e3 _ (by decide), fun i => e3 _ (fun h => by cases h), e5⟩
  rw [S.after] at e
  cases acct with
  | false => exact key s e
  | true =>
    by_cases hr : (s.tm .check).running = true
    · obtain ⟨s2, e1, e2, e3, e4, e5, -⟩ := start_ok clk .check (s.stop clk .check) (stop_off clk _ s)
      simp only [if_true, if_pos hr, e1, Option.map_some, Option.bind_some] at e
      obtain ⟨k1, k2, k3⟩ := key _ e
      refine ⟨?_, fun i => ?_, ?_⟩
      · rw [k1]; show s2.tm .total = _; rw [e3 _ (by decide), stop_ne clk _ s (by decide)]
      · rw [k2]; show s2.tm (.part i) = _; rw [e3 _ (fun h => by cases h), stop_ne clk _ s (fun h => by cases h)]
      · rw [k3]; show s2.shown = _; rw [e5, stop_shown]
    · simp only [if_true, if_neg hr, Option.bind_some] at e
      exact key { s with acct := s.acct ++ [(s.tm .check).last] } e

section safe
omit [LinearOrder F] [IsStrictOrderedRing F]

mutual
theorem doIt_ok (clk : ℕ → F) (acct : Bool) (s : S F) (c : Cmd) (hc : Calm c) (h : (s.tm .get).running = false) :
    ∃ r, s.doIt clk acct c = some r ∧ r.2 ≠ some .file ∧ (r.2 = none → (r.1.tm .get).running = false) := by
  cases c with
  | sim k b =>
    obtain ⟨s', e1, -, e3, -⟩ := sim_time clk k b s
    exact ⟨(s', none), by rw [S.doIt, e1]; rfl, (fun h => by cases h), fun _ => by show (s'.tm .get).running = false; rw [e3, h]⟩
  | get l t =>
    obtain ⟨h1, h2⟩ : Calms l ∧ t ≠ some .file := by rw [Calm] at hc; exact hc
    obtain ⟨s1, e1, -⟩ := again_ok clk .get s
    obtain ⟨r, f1, f2, -⟩ := doAll_ok clk acct s1 l h1
    rw [S.doIt, e1, Option.bind_some, f1, Option.map_some]
    obtain ⟨r1, r2⟩ := r
    cases r2 with
    | some e => exact ⟨_, rfl, f2, (fun h => by cases h)⟩
    | none =>
      cases t with
      | some e => exact ⟨_, rfl, h2, (fun h => by cases h)⟩
      | none => exact ⟨_, rfl, (fun h => by cases h), fun _ => stop_off clk _ r1⟩
  | incl l t =>
    obtain ⟨h1, h2⟩ : Calms l ∧ t ≠ some .file := by rw [Calm] at hc; exact hc
    obtain ⟨r, f1, f2, f3⟩ := doAll_ok clk acct s l h1
    rw [S.doIt, f1, Option.map_some]
    obtain ⟨r1, r2⟩ := r
    cases r2 with
    | some e =>
      cases e with
      | file => exact absurd rfl f2
      | other => exact ⟨_, rfl, (fun h => by cases h), (fun h => by cases h)⟩
    | none =>
      have hr : (r1.tm .get).running = false := by have := f3 rfl; rw [h] at this; exact this
      cases t with
      | some e =>
        cases e with
        | file => exact absurd rfl h2
        | other => exact ⟨_, rfl, (fun h => by cases h), (fun h => by cases h)⟩
      | none => exact ⟨_, rfl, (fun h => by cases h), fun _ => hr⟩
  | status => exact ⟨_, by rw [S.doIt], (fun h => by cases h), fun _ => h⟩
  | other t =>
    have h2 : t ≠ some .file := by rw [Calm] at hc; exact hc
    exact ⟨_, by rw [S.doIt], h2, fun _ => h⟩
theorem doAll_ok (clk : ℕ → F) (acct : Bool) (s : S F) (l : Cmds) (hl : Calms l) :
    ∃ r, s.doAll clk acct l = some r ∧ r.2 ≠ some .file ∧ (r.2 = none → (r.1.tm .get).running = (s.tm .get).running) := by
  cases l with
  | nil => exact ⟨(s, none), by rw [S.doAll], (fun h => by cases h), fun _ => rfl⟩
  | cons c l =>
    obtain ⟨h1, h2⟩ : Calm c ∧ Calms l := by rw [Calms] at hl; exact hl
    obtain ⟨s1, e1, e2, -⟩ := before_ok clk s
    obtain ⟨r, f1, f2, f3⟩ := doIt_ok clk acct s1 c h1 e2
    rw [S.doAll, e1, Option.bind_some, f1, Option.bind_some]
    obtain ⟨r1, r2⟩ := r
    cases r2 with
    | some e => exact ⟨_, rfl, f2, (fun h => by cases h)⟩
    | none =>
      obtain ⟨s2, g1, g2⟩ := after_ok clk acct (s.tm .get).running r1 (f3 rfl)
      obtain ⟨r', k1, k2, k3⟩ := doAll_ok clk acct s2 l h2
      refine ⟨r', ?_, k2, fun h => by rw [k3 h, g2]⟩
      simp only [g1, Option.bind_some, k1]
end

end safe

omit [LinearOrder F] [IsStrictOrderedRing F] in
/-- **C107, no failed assertion** (partial: no file is missing; otherwise `aborts`): whatever is simulated, read and thrown, no timer is started that
is running. -/
theorem never_aborts_partial (clk : ℕ → F) (acct : Bool) (l : List Cmd) (hl : ∀ c ∈ l, Calm c) : ∃ s, (S.new : S F).run clk acct l = some s := by
  have : ∀ (l : List Cmd) (s : S F), (∀ c ∈ l, Calm c) → ∃ s', s.run clk acct l = some s' := by
    intro l
    induction l with
    | nil => intro s _; exact ⟨s, rfl⟩
    | cons c l ih =>
      intro s hl
      obtain ⟨r, e, -⟩ := doAll_ok clk acct s (.cons c .nil) (by rw [Calms, Calms]; exact ⟨hl c (by simp), trivial⟩)
      obtain ⟨s', e'⟩ := ih r.1 (fun c hc => hl c (List.mem_cons_of_mem _ hc))
      exact ⟨s', by rw [S.run, S.top, e, Option.map_some, Option.bind_some, e']⟩
  exact this l _ hl

/-- the bounds, and that what was shown is right -/
structure Good (s : S F) : Prop where
  rest : Rest s
  shown : ∀ x ∈ s.shown, 0 ≤ x.1 ∧ 0 ≤ x.2

omit [IsStrictOrderedRing F] in
theorem good_other (s s' : S F) (h : Good s) (ht : s'.tm .total = s.tm .total) (hp : ∀ i, s'.tm (.part i) = s.tm (.part i))
    (hs : s'.shown = s.shown) : Good s' := ⟨rest_other s s' h.rest ht hp, by rw [hs]; exact h.shown⟩

mutual
theorem doIt_good (clk : ℕ → F) (hm : Monotone clk) (acct : Bool) (s : S F) (c : Cmd) (r : S F × Option Ex) (h : Good s)
    (e : s.doIt clk acct c = some r) : Good r.1 := by
  cases c with
  | sim k b =>
    rw [S.doIt] at e
    obtain ⟨s', e1, e2⟩ := Option.map_eq_some_iff.1 e
    obtain ⟨s'', f1, f2, -⟩ := sim_time clk k b s
    rw [f1] at e1
    rw [← Option.some.inj e1] at e2
    rw [← e2]
    exact ⟨sim_rest clk hm k b s s'' h.rest f1, by show ∀ x ∈ s''.shown, _; rw [f2]; exact h.shown⟩
  | get l t =>
    rw [S.doIt] at e
    obtain ⟨s1, e1, -, e3, -, e5, -⟩ := again_ok clk .get s
    rw [e1, Option.bind_some] at e
    obtain ⟨r', f1, f2⟩ := Option.map_eq_some_iff.1 e
    have g := doAll_good clk hm acct s1 l r' (good_other s s1 h (e3 _ (by decide)) (fun i => e3 _ (fun h => by cases h)) e5) f1
    rw [← f2]
    split
    · exact g
    · exact good_other r'.1 _ g (stop_ne clk _ _ (by decide)) (fun i => stop_ne clk _ _ (fun h => by cases h)) (stop_shown clk _ _)
  | incl l t =>
    rw [S.doIt] at e
    obtain ⟨r', f1, f2⟩ := Option.map_eq_some_iff.1 e
    rw [← f2]
    exact doAll_good clk hm acct s l r' h f1
  | status =>
    rw [S.doIt] at e
    rw [← Option.some.inj e]
    refine ⟨rest_other s _ h.rest rfl (fun _ => rfl), fun x hx => ?_⟩
    rcases List.mem_append.1 hx with hx | hx
    · exact h.shown x hx
    · rw [List.mem_singleton.1 hx, S.overhead]
      exact ⟨sub_nonneg.2 h.rest.last, sub_nonneg.2 h.rest.total⟩
  | other t =>
    rw [S.doIt] at e
    rw [← Option.some.inj e]
    exact h
theorem doAll_good (clk : ℕ → F) (hm : Monotone clk) (acct : Bool) (s : S F) (l : Cmds) (r : S F × Option Ex) (h : Good s)
    (e : s.doAll clk acct l = some r) : Good r.1 := by
  cases l with
  | nil => rw [S.doAll] at e; rw [← Option.some.inj e]; exact h
  | cons c l =>
    rw [S.doAll] at e
    obtain ⟨s1, e1, -, e3, e4, e5⟩ := before_ok clk s
    rw [e1, Option.bind_some] at e
    obtain ⟨r', f1, f2⟩ := Option.bind_eq_some_iff.1 e
    have g := doIt_good clk hm acct s1 c r' (good_other s s1 h e3 e4 e5) f1
    obtain ⟨r1, r2⟩ := r'
    cases r2 with
    | some x => simp only at f2; rw [← Option.some.inj f2]; exact g
    | none =>
      simp only at f2
      obtain ⟨s2, g1, g2⟩ := Option.bind_eq_some_iff.1 f2
      obtain ⟨k1, k2, k3⟩ := after_keeps clk acct _ r1 s2 g1
      exact doAll_good clk hm acct s2 l r (good_other r1 s2 g k1 k2 k3) g2
end

/-- **C107, overhead**: in every session, with everything thrown anywhere, `status` shows no negative overhead, neither of the last simulation nor of
all: what the parts of simulations took is never more than the simulations. -/
theorem overhead_nonneg (clk : ℕ → F) (hm : Monotone clk) (acct : Bool) (l : List Cmd) (s : S F) (e : (S.new : S F).run clk acct l = some s) :
    (∀ x ∈ s.shown, 0 ≤ x.1 ∧ 0 ≤ x.2) ∧ ∑ i, (s.tm (.part i)).last ≤ (s.tm .total).last ∧ ∑ i, (s.tm (.part i)).total ≤ (s.tm .total).total := by
  have : ∀ (l : List Cmd) (s s' : S F), Good s → s.run clk acct l = some s' → Good s' := by
    intro l
    induction l with
    | nil => intro s s' h e; rw [S.run] at e; rw [← Option.some.inj e]; exact h
    | cons c l ih =>
      intro s s' h e
      rw [S.run, S.top] at e
      obtain ⟨s1, e1, e2⟩ := Option.bind_eq_some_iff.1 e
      obtain ⟨r, f1, f2⟩ := Option.map_eq_some_iff.1 e1
      rw [← f2] at e2
      exact ih r.1 s' (doAll_good clk hm acct s _ r h f1) e2
  have g := this l S.new s ⟨⟨rfl, by simp [S.new, T.new], by simp [S.new, T.new]⟩, by simp [S.new]⟩ e
  exact ⟨g.shown, g.rest.last, g.rest.total⟩

/-! ## The parts, exactly -/

/-- specification: the time phases spend in a part, from the reading `n` on, each between two readings, until one throws -/
def spent (clk : ℕ → F) (i : Fin 9) : List Ph → ℕ → F
  | [], _ => 0
  | p :: l, n => if p.throws then 0 else (if p.part = some i then clk (n + 1) - clk n else 0) + spent clk i l (n + 2)

section exact
omit [LinearOrder F] [IsStrictOrderedRing F]

theorem phases_parts (clk : ℕ → F) (l : List Ph) (s s' : S F) (e : s.phases clk l = some s') (i : Fin 9) :
    (s'.tm (.part i)).last = (s.tm (.part i)).last + spent clk i l s.n ∧ (s'.tm (.part i)).total = (s.tm (.part i)).total + spent clk i l s.n := by
  induction l generalizing s with
  | nil => rw [S.phases] at e; rw [← Option.some.inj e, spent]; simp
  | cons p l ih =>
    rw [S.phases] at e
    by_cases hr : (s.tm p.tm).running = true
    · rw [S.start, if_pos hr] at e; cases e
    obtain ⟨s1, e1, e2, e3, e4, -⟩ := start_ok clk p.tm s (by simpa using hr)
    have hl : (s1.tm (.part i)).last = (s.tm (.part i)).last ∧ (s1.tm (.part i)).total = (s.tm (.part i)).total := by
      by_cases ej : Tm.part i = p.tm
      · rw [ej, e2]; exact ⟨rfl, rfl⟩
      · rw [e3 _ ej]; exact ⟨rfl, rfl⟩
    rw [e1, Option.bind_some] at e
    rw [spent]
    cases hth : p.throws with
    | true =>
      rw [hth] at e
      rw [← Option.some.inj e]; simpa using hl
    | false =>
      rw [hth] at e
      obtain ⟨k1, k2⟩ := ih (s1.stop clk p.tm) (by simpa using e)
      obtain ⟨g1, g2⟩ := stop_on clk p.tm s1 (by rw [e2])
      have gn : (s1.stop clk p.tm).n = s.n + 2 := by rw [g2, e4]
      rw [gn] at k1 k2
      simp only [Bool.false_eq_true, if_false]
      by_cases ej : p.part = some i
      · have hpt : p.tm = .part i := by rw [Ph.tm, ej]
        rw [← hpt, g1, e2] at k1 k2
        simp only [e4] at k1 k2
        rw [if_pos ej, ← hpt, k1, k2]
        constructor <;> ring
      · have hpt : Tm.part i ≠ p.tm := by
          rw [Ph.tm]
          cases hp : p.part with
          | none => exact fun h => by cases h
          | some j => exact fun h => ej (by rw [hp]; injection h with h; rw [h])
        rw [stop_ne clk _ _ hpt, hl.1] at k1
        rw [stop_ne clk _ _ hpt, hl.2] at k2
        rw [if_neg ej, k1, k2]
        constructor <;> ring

theorem body_parts (clk : ℕ → F) (b : Body) (s s' : S F) (e : s.body clk b = some s') (hu : (s.tm .setUp).running = true) (ht : b.throws = false)
    (ho : b.order ≠ some true) (i : Fin 9) :
    (s'.tm (.part i)).last = (s.tm (.part i)).last + spent clk i b.phases (s.n + if b.order = some false then 3 else 1) ∧
    (s'.tm (.part i)).total = (s.tm (.part i)).total + spent clk i b.phases (s.n + if b.order = some false then 3 else 1) := by
  rw [S.body] at e
  obtain ⟨s1, e1, e2, e3, e4, -⟩ := again_ok clk .order s
  cases hb : b.order with
  | none =>
    rw [hb] at e
    simp only [ht, Bool.false_eq_true, if_false] at e
    have k := phases_parts clk b.phases _ s' e i
    rw [stop_ne clk _ s (fun h => by cases h), (stop_on clk .setUp s hu).2] at k
    simpa using k
  | some t =>
    cases t with
    | true => exact absurd hb ho
    | false =>
      rw [hb] at e
      simp only [e1, Option.bind_some, ht, Bool.false_eq_true, if_false] at e
      have k := phases_parts clk b.phases _ s' e i
      have u : ((s1.stop clk .order).tm .setUp).running = true := by rw [stop_ne clk _ _ (by decide), e3 _ (by decide), hu]
      rw [stop_ne clk _ _ (fun h => by cases h), stop_ne clk _ _ (fun h => by cases h), e3 _ (fun h => by cases h), (stop_on clk .setUp _ u).2,
        (stop_on clk .order s1 (by rw [e2])).2, e4] at k
      simpa using k

theorem resetTimers_setUp (clk : ℕ → F) (s s' : S F) (e : s.resetTimers clk = some s') : (s'.tm .setUp).running = true := by
  obtain ⟨s1, e1, e2, -⟩ := again_ok clk .setUp s.resetParts
  obtain ⟨s2, f1, f2, f3, -⟩ := again_ok clk .total s1
  rw [S.resetTimers, e1, Option.bind_some, f1] at e
  rw [← Option.some.inj e, f3 _ (by decide), e2]

/-- **C107, parts**: in a simulation that gets through its set up every part has measured the phases completed in it, each from its start to its
end, whatever was left running before; the phase that throws is not counted. -/
theorem sim_parts (clk : ℕ → F) (k : Kind) (b : Body) (s s' : S F) (e : s.sim clk k b = some s') (ht : b.throws = false) (ho : b.order ≠ some true)
    (i : Fin 9) :
    (s'.tm (.part i)).last = spent clk i b.phases (s.n + if b.order = some false then 6 else 4) ∧
    (s'.tm (.part i)).total = (s.tm (.part i)).total + spent clk i b.phases (s.n + if b.order = some false then 6 else 4) := by
  have hn : ∀ m, m = s.n + 3 → (m + if b.order = some false then 3 else 1) = s.n + if b.order = some false then 6 else 4 := by
    intro m hm; split_ifs <;> omega
  rw [S.sim] at e
  split_ifs at e with hk
  · obtain ⟨s1, e1, e2, e3, e4, e5, e6⟩ := resetTimers_ok clk s
    obtain ⟨s2, f1, f2, f3, f4, f5, -⟩ := again_ok clk (.kind k) s1
    obtain ⟨s3, g1, g2, g3⟩ := body_ok clk b s2 (fun i => by rw [f3 _ (fun h => by cases h), e3])
    simp only [e1, f1, g1, Option.bind_some, Option.map_some] at e
    have := body_parts clk b s2 s3 g1 (by rw [f3 _ (fun h => by cases h)]; exact resetTimers_setUp clk s s1 e1) ht ho i
    rw [hn s2.n (by omega), f3 _ (fun h => by cases h), e3] at this
    rw [← Option.some.inj e, stop_ne clk _ _ (fun h => by cases h), stop_ne clk _ _ (fun h => by cases h)]
    simpa using this
  · obtain ⟨s1, f1, f2, f3, f4, f5, -⟩ := again_ok clk (.kind k) s
    obtain ⟨s2, e1, e2, e3, e4, e5, e6⟩ := resetTimers_ok clk s1
    obtain ⟨s3, g1, g2, g3⟩ := body_ok clk b s2 (fun i => by rw [e3])
    simp only [e1, f1, g1, Option.bind_some, Option.map_some] at e
    have := body_parts clk b s2 s3 g1 (resetTimers_setUp clk s1 s2 e1) ht ho i
    rw [hn s2.n (by omega), e3, f3 _ (fun h => by cases h)] at this
    rw [← Option.some.inj e, stop_ne clk _ _ (fun h => by cases h), stop_ne clk _ _ (fun h => by cases h)]
    simpa using this

/-- **C107, reading a file**: `get` of a file without commands measures from its start to its end. -/
theorem get_time (clk : ℕ → F) (acct : Bool) (s : S F) :
    ∃ s', s.doIt clk acct (.get .nil none) = some (s', none) ∧
      s'.tm .get = ⟨0, clk (s.n + 1) - clk s.n, (s.tm .get).total + (clk (s.n + 1) - clk s.n), false⟩ := by
  obtain ⟨s1, e1, e2, e3, e4, -⟩ := again_ok clk .get s
  obtain ⟨g1, g2⟩ := stop_on clk .get s1 (by rw [e2])
  refine ⟨s1.stop clk .get, by rw [S.doIt, e1, Option.bind_some, S.doAll]; rfl, ?_⟩
  rw [g1, e2, e4]
  simp

end exact

mutual
/-- the command throws nowhere, but within simulations -/
def Quiet : Cmd → Prop
  | .sim _ _ => True
  | .get l t => Quiets l ∧ t = none
  | .incl l t => Quiets l ∧ t = none
  | .status => True
  | .other t => t = none
def Quiets : Cmds → Prop
  | .nil => True
  | .cons c l => Quiet c ∧ Quiets l
end

section quiet
omit [LinearOrder F] [IsStrictOrderedRing F]

mutual
theorem doIt_quiet (clk : ℕ → F) (acct : Bool) (s : S F) (c : Cmd) (hc : Quiet c) (h : (s.tm .get).running = false) :
    ∃ s', s.doIt clk acct c = some (s', none) ∧ (s'.tm .get).running = false := by
  cases c with
  | sim k b =>
    obtain ⟨s', e1, -, e3, -⟩ := sim_time clk k b s
    exact ⟨s', by rw [S.doIt, e1]; rfl, by rw [e3, h]⟩
  | get l t =>
    obtain ⟨h1, rfl⟩ : Quiets l ∧ t = none := by rw [Quiet] at hc; exact hc
    obtain ⟨s1, e1, -⟩ := again_ok clk .get s
    obtain ⟨s2, f1, -⟩ := doAll_quiet clk acct s1 l h1
    exact ⟨s2.stop clk .get, by rw [S.doIt, e1, Option.bind_some, f1, Option.map_some]; rfl, stop_off clk _ s2⟩
  | incl l t =>
    obtain ⟨h1, rfl⟩ : Quiets l ∧ t = none := by rw [Quiet] at hc; exact hc
    obtain ⟨s2, f1, f2⟩ := doAll_quiet clk acct s l h1
    exact ⟨s2, by rw [S.doIt, f1, Option.map_some]; rfl, by rw [f2, h]⟩
  | status => exact ⟨{ s with shown := s.shown ++ [s.overhead] }, by rw [S.doIt], h⟩
  | other t =>
    have h2 : t = none := by rw [Quiet] at hc; exact hc
    exact ⟨s, by rw [S.doIt, h2], h⟩
theorem doAll_quiet (clk : ℕ → F) (acct : Bool) (s : S F) (l : Cmds) (hl : Quiets l) :
    ∃ s', s.doAll clk acct l = some (s', none) ∧ (s'.tm .get).running = (s.tm .get).running := by
  cases l with
  | nil => exact ⟨s, by rw [S.doAll], rfl⟩
  | cons c l =>
    obtain ⟨h1, h2⟩ : Quiet c ∧ Quiets l := by rw [Quiets] at hl; exact hl
    obtain ⟨s1, e1, e2, -⟩ := before_ok clk s
    obtain ⟨s2, f1, f2⟩ := doIt_quiet clk acct s1 c h1 e2
    obtain ⟨s3, g1, g2⟩ := after_ok clk acct (s.tm .get).running s2 f2
    obtain ⟨s4, k1, k2⟩ := doAll_quiet clk acct s3 l h2
    exact ⟨s4, by simp only [S.doAll, e1, Option.bind_some, f1, g1, k1], by rw [k2, g2]⟩
end

/-- **C107, get stops** (partial: nothing is thrown outside of simulations; otherwise `get_left`): between commands the timer of `get` does not run. -/
theorem get_off_partial (clk : ℕ → F) (acct : Bool) (l : List Cmd) (hl : ∀ c ∈ l, Quiet c) :
    ∃ s, (S.new : S F).run clk acct l = some s ∧ (s.tm .get).running = false := by
  have : ∀ (l : List Cmd) (s : S F), (∀ c ∈ l, Quiet c) → (s.tm .get).running = false → ∃ s', s.run clk acct l = some s' ∧ (s'.tm .get).running = false := by
    intro l
    induction l with
    | nil => intro s _ h; exact ⟨s, rfl, h⟩
    | cons c l ih =>
      intro s hl h
      obtain ⟨s1, e, e'⟩ := doAll_quiet clk acct s (.cons c .nil) (by rw [Quiets, Quiets]; exact ⟨hl c (by simp), trivial⟩)
      obtain ⟨s', f1, f2⟩ := ih s1 (fun c hc => hl c (List.mem_cons_of_mem _ hc)) (by rw [e', h])
      exact ⟨s', by rw [S.run, S.top, e, Option.map_some, Option.bind_some, f1], f2⟩
  exact this l _ hl rfl

end quiet

/-! ## Examples and failures -/

/-- a clock that is one later at each reading -/
def ticks (n : ℕ) : ℚ := n

example : Monotone ticks := fun _ _ h => Nat.cast_le.2 h

/-- an operating point of two phases -/
def point : Cmd := .sim .op ⟨some false, false, [⟨some 2, false⟩, ⟨none, false⟩, ⟨some 2, false⟩]⟩

/-- `get` of a file that is missing -/
def missing : Cmd := .get .nil (some .file)

def seen (s : Option (S ℚ)) (k : Tm) : Option (ℚ × ℚ × Bool) := s.map fun s => ((s.tm k).last, (s.tm k).total, (s.tm k).running)

/-- `overhead_nonneg`, `sim_time`, `sim_parts`: two operating points -/
example : seen ((S.new : S ℚ).run ticks false [point, point, .status]) (.part 2) = some (2, 4, false) ∧
    seen ((S.new : S ℚ).run ticks false [point, point, .status]) .total = some (10, 20, false) ∧
    ((S.new : S ℚ).run ticks false [point, point, .status]).map S.shown = some [(8, 16)] := by
  refine ⟨?_, ?_, ?_⟩ <;> decide +kernel

/-- `never_aborts_partial`, `get_off_partial`: a file with a simulation and another file in it -/
example : Calm (.get (.cons point (.cons (.get .nil none) .nil)) none) ∧ Quiet (.get (.cons point (.cons (.get .nil none) .nil)) none) := by
  simp [Calm, Calms, Quiet, Quiets, point]

/-- **C107 fails, assertion**: a file is missing, then again within an included file: the timer of `get` is started while it runs. -/
theorem aborts : ((S.new : S ℚ).run ticks false [missing, .incl (.cons missing .nil) none]).isNone = true ∧
    ((S.new : S ℚ).run ticks false [.get (.cons (.incl (.cons missing .nil) none) .nil) none]).isNone = true := by
  constructor <;> decide +kernel

/-- **C107 fails, get**: after a missing file the timer of `get` runs between all commands, whatever is read then. -/
theorem get_left : seen ((S.new : S ℚ).run ticks false [missing, .get .nil none, .other none]) .get = some (2, 3, true) ∧
    seen ((S.new : S ℚ).run ticks false [.get .nil none, .other none]) .get = some (1, 1, false) := by
  constructor <;> decide +kernel

/-- **C107 fails, nested files**: the last time of `get` is only what came after the last file read within. -/
theorem last_nested : seen ((S.new : S ℚ).run ticks false [.get (.cons (.other none) (.cons (.get .nil none) .nil)) none]) .get = some (2, 4, false) := by
  decide +kernel

/-- **C107 fails, accounting**: the time shown for a command that reads commands is only that since the start of the last of them: 2, although
the first of them alone took 15. -/
theorem acct_last : ((S.new : S ℚ).run ticks true [.incl (.cons point (.cons (.other none) .nil)) none]).map S.acct = some [15, 1, 2] := by
  decide +kernel

/-- a clock that jumps after the reading 7 -/
def late (n : ℕ) : ℚ := if n ≤ 7 then n else 1000 + n

/-- **C107 fails, thrown**: the phase that throws, of 1001 here, is not counted in its part, then or later; its time is shown as overhead. -/
theorem thrown_lost : seen ((S.new : S ℚ).run late false [.sim .op ⟨none, false, [⟨some 2, false⟩, ⟨some 2, true⟩]⟩, point]) (.part 2) =
      some (2, 3, false) ∧
    ((S.new : S ℚ).run late false [.sim .op ⟨none, false, [⟨some 2, false⟩, ⟨some 2, true⟩]⟩, .status]).map S.shown = some [(1004, 1004)] := by
  constructor <;> decide +kernel

end Gnucap.Timer.Props
