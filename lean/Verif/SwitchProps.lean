import Mathlib.Tactic.Linarith
import Mathlib.Tactic.FieldSimp
import Mathlib.Tactic.Ring
import Mathlib.Tactic.NormNum
import Mathlib.Tactic.Positivity
import Verif.SwitchModel
import Verif.TransModel

/-!
# Hysteresis of the switch, and the steps it asks for
-/
set_option linter.unusedSimpArgs false
namespace Gnucap.Switch

/-! ## specification: who decides

The history is a list of controlling values, the newest first.  The newest value that is not between
the thresholds decides; if there is none, the switch is in its initial state. -/

/-- with the thresholds themselves deciding (as in transient analysis) -/
def decided (von voff : ℚ) (first : State) (hist : List ℚ) : State :=
  match hist.find? (fun x => decide (von ≤ x ∨ x ≤ voff)) with
  | none => first
  | some x => if von ≤ x then .on else .off

/-- with the thresholds not deciding (as in DC analysis) -/
def decidedStrict (von voff : ℚ) (first : State) (hist : List ℚ) : State :=
  match hist.find? (fun x => decide (von < x ∨ x < voff)) with
  | none => first
  | some x => if von < x then .on else .off

/-- In a transient run: the values read by the last review before each move forward (the newest
first); `x` is the value read by the last review so far. -/
def committed : List Op → ℚ → List ℚ → List ℚ
  | [], _, h => h
  | .review x :: r, _, h => committed r x h
  | .advance _ :: r, x, h => committed r x (x :: h)
  | _ :: r, x, h => committed r x h

/-- The calls of a transient run after its first, static, point. -/
def Transient : Op → Prop
  | .advance _ => True
  | .regress _ => True
  | .dynamic => True
  | .review _ => True
  | _ => False

/-- In a DC run: the values read by the last evaluation before each `dc_advance`. -/
def committedDc : List Op → Option ℚ → List ℚ → List ℚ
  | [], _, h => h
  | .static x :: r, _, h => committedDc r (some x) h
  | .dcAdvance :: r, x, h => committedDc r none (x.toList ++ h)
  | _ :: r, x, h => committedDc r x h

/-- The value read by the last evaluation of the DC point that is being solved. -/
def current : List Op → Option ℚ → Option ℚ
  | [], x => x
  | .static x :: r, _ => current r (some x)
  | .dcAdvance :: r, _ => current r none
  | _ :: r, x => current r x

/-- The calls of a DC sweep. -/
def Dc : Op → Prop
  | .static _ => True
  | .dcAdvance => True
  | _ => False

/-! ## hysteresis -/

theorem run_cons (m : Model) (o : Op) (r : List Op) (s : Sw) : run m (o :: r) s = run m r (step m s o) := rfl

theorem decided_cons (von voff : ℚ) (f : State) (x : ℚ) (h : List ℚ) :
    decided von voff f (x :: h) = if von ≤ x then .on else if x ≤ voff then .off else decided von voff f h := by
  unfold decided
  by_cases h1 : von ≤ x
  · simp [List.find?, h1]
  · by_cases h2 : x ≤ voff
    · simp [List.find?, h1, h2]
    · simp [List.find?, h1, h2]

theorem decidedStrict_cons (von voff : ℚ) (f : State) (x : ℚ) (h : List ℚ) :
    decidedStrict von voff f (x :: h) = if von < x then .on else if x < voff then .off else decidedStrict von voff f h := by
  unfold decidedStrict
  by_cases h1 : von < x
  · simp [List.find?, h1]
  · by_cases h2 : x < voff
    · simp [List.find?, h1, h2]
    · simp [List.find?, h1, h2]

theorem trReview_keeps (m : Model) (x : ℚ) (s : Sw) :
    (trReview m x s).st0 = s.st0 ∧ (trReview m x s).st1 = s.st1 ∧ (trReview m x s).in0 = x ∧
    (trReview m x s).in1 = s.in1 ∧ (trReview m x s).t0 = s.t0 ∧ (trReview m x s).t1 = s.t1 ∧
    (trReview m x s).r = s.r ∧ (trReview m x s).g = s.g := by
  simp only [trReview, minEvent]
  split
  · split <;> exact ⟨rfl, rfl, rfl, rfl, rfl, rfl, rfl, rfl⟩
  · split
    · split <;> exact ⟨rfl, rfl, rfl, rfl, rfl, rfl, rfl, rfl⟩
    · exact ⟨rfl, rfl, rfl, rfl, rfl, rfl, rfl, rfl⟩

theorem trAdvance_st0 (m : Model) (t : ℚ) (s : Sw) : (trAdvance m t s).st0 =
    (if m.von ≤ s.in0 then .on else if s.in0 ≤ m.voff then .off else s.st0) := by
  rw [← nextTr]
  simp only [trAdvance]
  split <;> rfl

theorem trAdvance_in0 (m : Model) (t : ℚ) (s : Sw) : (trAdvance m t s).in0 = s.in0 := by
  simp only [trAdvance]
  split <;> rfl

theorem doDynamic_keeps (s : Sw) : (doDynamic s).st0 = s.st0 ∧ (doDynamic s).st1 = s.st1 ∧ (doDynamic s).in0 = s.in0 ∧
    (doDynamic s).in1 = s.in1 ∧ (doDynamic s).t0 = s.t0 ∧ (doDynamic s).t1 = s.t1 ∧
    (doDynamic s).r = s.r ∧ (doDynamic s).g = s.g := by
  unfold doDynamic
  split <;> exact ⟨rfl, rfl, rfl, rfl, rfl, rfl, rfl, rfl⟩

/-- Transient analysis: whatever is tried and thrown away, the state in force is decided by the newest
input, among those read at the end of each finished step, that is not between the thresholds. -/
theorem transient_state (m : Model) (ops : List Op) (hops : ∀ o ∈ ops, Transient o) (s : Sw) :
    (run m ops s).st0 = decided m.von m.voff s.st0 (committed ops s.in0 []) := by
  have key : ∀ (ops : List Op), (∀ o ∈ ops, Transient o) → ∀ (s : Sw) (f : State) (h : List ℚ),
      s.st0 = decided m.von m.voff f h → (run m ops s).st0 = decided m.von m.voff f (committed ops s.in0 h) := by
    intro ops
    induction ops with
    | nil => intro _ s f h hs; exact hs
    | cons o r ih =>
      intro hops s f h hs
      have hr : ∀ o ∈ r, Transient o := fun o ho => hops o (List.mem_cons_of_mem _ ho)
      have ho := hops o (List.mem_cons_self ..)
      rw [run_cons]
      cases o with
      | begin => exact ho.elim
      | dcAdvance => exact ho.elim
      | static x => exact ho.elim
      | advance t =>
        have := ih hr (trAdvance m t s) f (s.in0 :: h) (by rw [trAdvance_st0, decided_cons, hs])
        rw [trAdvance_in0] at this
        exact this
      | regress t => exact ih hr (trRegress t s) f h hs
      | dynamic =>
        obtain ⟨a, _, b, _⟩ := doDynamic_keeps s
        have := ih hr (doDynamic s) f h (by rw [a, hs])
        rw [b] at this
        exact this
      | review x =>
        obtain ⟨a, _, b, _⟩ := trReview_keeps m x s
        have := ih hr (trReview m x s) f h (by rw [a, hs])
        rw [b] at this
        exact this
  exact key ops hops s s.st0 [] rfl

/-- The user gives a threshold and a hysteresis, and none of `von`, `voff`: the switch is decided by the
newest input that is at least `vh` above or below `vt`. -/
theorem transient_state_vt_vh (m : Model) (vt vh : ℚ) (hm : (m.von, m.voff) = thresholds vt vh none none) (ops : List Op)
    (hops : ∀ o ∈ ops, Transient o) (s : Sw) :
    (run m ops s).st0 = decided (vt + vh) (vt - vh) s.st0 (committed ops s.in0 []) := by
  rw [transient_state m ops hops s, (Prod.mk.inj hm).1, (Prod.mk.inj hm).2]
  rfl

/-- Thresholds that are given stand, each by itself. -/
theorem thresholds_given (vt vh a b : ℚ) : thresholds vt vh (some a) (some b) = (a, b) ∧
    thresholds vt vh (some a) none = (a, vt - vh) ∧ thresholds vt vh none (some b) = (vt + vh, b) := ⟨rfl, rfl, rfl⟩

/-- DC analysis: the state is decided by the newest input, among the last values read at each finished
point and the one just read, that is outside the thresholds; iterations on the way do not count. -/
theorem dc_state (m : Model) (ops : List Op) (hops : ∀ o ∈ ops, Dc o) (s : Sw) (hs : s.st0 = s.st1) :
    (run m ops s).st0 = decidedStrict m.von m.voff s.st0 ((current ops none).toList ++ committedDc ops none []) := by
  have key : ∀ (ops : List Op), (∀ o ∈ ops, Dc o) → ∀ (s : Sw) (f : State) (x : Option ℚ) (h : List ℚ),
      s.st1 = decidedStrict m.von m.voff f h → s.st0 = decidedStrict m.von m.voff f (x.toList ++ h) →
      (run m ops s).st0 = decidedStrict m.von m.voff f ((current ops x).toList ++ committedDc ops x h) := by
    intro ops
    induction ops with
    | nil => intro _ s f x h _ h2; exact h2
    | cons o r ih =>
      intro hops s f x h h1 h2
      have hr : ∀ o ∈ r, Dc o := fun o ho => hops o (List.mem_cons_of_mem _ ho)
      have ho := hops o (List.mem_cons_self ..)
      rw [run_cons]
      cases o with
      | begin => exact ho.elim
      | advance t => exact ho.elim
      | regress t => exact ho.elim
      | dynamic => exact ho.elim
      | review x => exact ho.elim
      | dcAdvance => exact ih hr (dcAdvance s) f none (x.toList ++ h) h2 h2
      | static y =>
        refine ih hr (doStatic m y s) f (some y) h ?_ ?_
        · rw [← h1]
          simp only [doStatic]
          split <;> rfl
        · have : (doStatic m y s).st0 = if m.von < y then .on else if y < m.voff then .off else s.st1 := by
            rw [← nextDc]
            simp only [doStatic]
            split
            · rfl
            · rename_i h3
              exact (not_not.mp h3).symm
          rw [this, h1]
          exact (decidedStrict_cons ..).symm
  exact key ops hops s s.st0 none [] (by rw [← hs]; rfl) rfl

/-- The static evaluation reports convergence exactly when the state stands. -/
theorem static_converged (m : Model) (x : ℚ) (s : Sw) : (doStatic m x s).conv = true ↔ (doStatic m x s).st0 = s.st0 := by
  simp only [doStatic]
  split
  · rename_i h
    simp
    exact h
  · simp

/-! ## the conductance -/

/-- The resistance is the one of the state, the conductance its inverse. -/
def Matches (m : Model) (s : Sw) : Prop := s.r = m.res s.st0 ∧ s.g = 1 / m.res s.st0

/-- Specification: an unknown state counts as off. -/
theorem res_eq (m : Model) (st : State) : m.res st = if st = .on then m.ron else m.roff := by
  cases st <;> rfl

theorem matches_step (m : Model) (o : Op) (s : Sw) (h : Matches m s) : Matches m (step m s o) := by
  cases o with
  | begin => exact ⟨rfl, rfl⟩
  | dcAdvance => exact h
  | regress t => exact h
  | advance t =>
    simp only [step, trAdvance]
    split
    · exact ⟨rfl, rfl⟩
    · rename_i h1
      have h2 := not_not.mp h1
      unfold Matches at h ⊢
      simp only at h2 ⊢
      rw [← h2]
      exact h
  | static x =>
    simp only [step, doStatic]
    split
    · exact ⟨rfl, rfl⟩
    · exact h
  | dynamic =>
    obtain ⟨a, _, _, _, _, _, b, c⟩ := doDynamic_keeps s
    simp only [step, Matches, a, b, c]
    exact h
  | review x =>
    obtain ⟨a, _, _, _, _, _, b, c⟩ := trReview_keeps m x s
    simp only [step, Matches, a, b, c]
    exact h

/-- After any sequence of calls the conductance is the one of the state. -/
theorem conductance_matches (m : Model) (ops : List Op) (s : Sw) :
    (run m ops (precalc m s)).r = (if (run m ops (precalc m s)).st0 = .on then m.ron else m.roff) ∧
    (run m ops (precalc m s)).g = 1 / (if (run m ops (precalc m s)).st0 = .on then m.ron else m.roff) := by
  have : ∀ (ops : List Op) (s : Sw), Matches m s → Matches m (run m ops s) := by
    intro ops
    induction ops with
    | nil => intro s h; exact h
    | cons o r ih => intro s h; exact ih _ (matches_step m o s h)
  have h := this ops (precalc m s) ⟨rfl, rfl⟩
  rw [← res_eq]
  exact h

/-- A change of the conductance is never kept from the matrix: it is made in a call that queues the
device for loading, or in `tr_advance`, which queues it for evaluation, and that evaluation queues it
for loading. -/
theorem change_is_loaded (m : Model) (s : Sw) (h : Matches m s) :
    (∀ x, (doStatic m x s).g ≠ s.g → (doStatic m x s).loadq = true) ∧
    (∀ t, (trAdvance m t s).g ≠ s.g → (trAdvance m t s).evalq = true ∧ (doDynamic (trAdvance m t s)).loadq = true) ∧
    (∀ t, (trRegress t s).g = s.g) ∧ (doDynamic s).g = s.g ∧ ∀ x, (trReview m x s).g = s.g := by
  refine ⟨fun x hg => ?_, fun t hg => ?_, fun _ => rfl, (doDynamic_keeps s).2.2.2.2.2.2.2, fun x => (trReview_keeps m x s).2.2.2.2.2.2.2⟩
  · simp only [doStatic] at hg ⊢
    split at hg
    · rename_i h1
      rw [if_pos h1]
    · exact absurd rfl hg
  · simp only [trAdvance] at hg ⊢
    split at hg
    · rename_i h1
      rw [if_pos h1]
      refine ⟨rfl, ?_⟩
      simp only [doDynamic]
      rw [if_pos (Ne.symm h1)]
    · exact absurd rfl hg

/-! ## the announced switching time -/

/-- What holds of the state and the input at the beginning of a step. -/
def Decided (m : Model) (s : Sw) : Prop :=
  (s.st0 ≠ .on → s.in1 < m.von) ∧ (s.st0 ≠ .off → m.voff < s.in1 ∨ m.von ≤ s.in1)

theorem decided_advance (m : Model) (t : ℚ) (s : Sw) : Decided m (trAdvance m t s) := by
  have h0 := trAdvance_st0 m t s
  have h1 : (trAdvance m t s).in1 = s.in0 := by
    simp only [trAdvance]
    split <;> rfl
  unfold Decided
  rw [h0, h1]
  by_cases a : m.von ≤ s.in0
  · simp [a]
  · by_cases b : s.in0 ≤ m.voff
    · simp [a, b]
      exact not_le.mp a
    · simp [a, b]
      exact ⟨fun _ => not_le.mp a, fun _ => not_le.mp b⟩

/-- It stays so through every retry of the step. -/
theorem decided_run (m : Model) (ops : List Op) (hops : ∀ o ∈ ops, Transient o) (s : Sw) (h : Decided m s) :
    Decided m (run m ops s) := by
  induction ops generalizing s with
  | nil => exact h
  | cons o r ih =>
    rw [run_cons]
    refine ih (fun o ho => hops o (List.mem_cons_of_mem _ ho)) _ ?_
    have ho := hops o (List.mem_cons_self ..)
    cases o with
    | begin => exact ho.elim
    | dcAdvance => exact ho.elim
    | static x => exact ho.elim
    | advance t => exact decided_advance m t s
    | regress t => exact h
    | dynamic =>
      obtain ⟨a, _, _, b, _⟩ := doDynamic_keeps s
      simp only [step, Decided, a, b]
      exact h
    | review x =>
      obtain ⟨a, _, _, b, _⟩ := trReview_keeps m x s
      simp only [step, Decided, a, b]
      exact h

/-- The straight line through the input at both ends of the step. -/
def line (s : Sw) (x t : ℚ) : ℚ := s.in1 + (x - s.in1) * (t - s.t1) / (s.t0 - s.t1)

/-- The input, at the end of the step, says something else than the state in force. -/
def Switches (m : Model) (s : Sw) (x : ℚ) : Prop :=
  (s.st0 ≠ .on ∧ m.von ≤ x) ∨ (s.st0 ≠ .off ∧ x ≤ m.voff)

/-- If the input has passed a threshold within the step, the time announced is within the step and is
the time at which the straight line meets that threshold. -/
theorem crossing_announced (m : Model) (s : Sw) (x : ℚ) (hd : Decided m s) (ht : s.t1 < s.t0) (hv : m.voff < m.von)
    (hn : s.t0 < m.never) (hsw : Switches m s x) :
    s.t1 < (trReview m x s).event ∧ (trReview m x s).event ≤ s.t0 ∧
    (line s x (trReview m x s).event = m.von ∨ line s x (trReview m x s).event = m.voff) := by
  have hdt : 0 < s.t0 - s.t1 := by linarith
  rcases hsw with ⟨h1, h2⟩ | ⟨h1, h2⟩
  · have h3 := hd.1 h1
    have hdv : 0 < x - s.in1 := by linarith
    have q0 : 0 < (m.von - s.in1) / (x - s.in1) := div_pos (by linarith) hdv
    have q1 : (m.von - s.in1) / (x - s.in1) ≤ 1 := by
      rw [div_le_one hdv]
      linarith
    have e : s.t1 + (s.t0 - s.t1) * (m.von - s.in1) / (x - s.in1) =
        s.t1 + (s.t0 - s.t1) * ((m.von - s.in1) / (x - s.in1)) := by ring
    have ev : (trReview m x s).event = s.t1 + (s.t0 - s.t1) * ((m.von - s.in1) / (x - s.in1)) := by
      simp only [trReview]
      rw [if_pos ⟨h1, hdv⟩, minEvent, e, if_pos]
      have := mul_le_mul_of_nonneg_left q1 hdt.le
      simp only
      linarith
    rw [ev]
    refine ⟨?_, ?_, Or.inl ?_⟩
    · have := mul_pos hdt q0
      linarith
    · have := mul_le_mul_of_nonneg_left q1 hdt.le
      linarith
    · rw [line]
      have := hdt.ne'
      have := hdv.ne'
      field_simp
      ring
  · have h3 : m.voff < s.in1 := by
      rcases hd.2 h1 with h | h
      · exact h
      · linarith
    have hdv : x - s.in1 < 0 := by linarith
    have q0 : 0 < (m.voff - s.in1) / (x - s.in1) := div_pos_of_neg_of_neg (by linarith) hdv
    have q1 : (m.voff - s.in1) / (x - s.in1) ≤ 1 := by
      rw [div_le_one_of_neg hdv]
      linarith
    have e : s.t1 + (s.t0 - s.t1) * (m.voff - s.in1) / (x - s.in1) =
        s.t1 + (s.t0 - s.t1) * ((m.voff - s.in1) / (x - s.in1)) := by ring
    have ev : (trReview m x s).event = s.t1 + (s.t0 - s.t1) * ((m.voff - s.in1) / (x - s.in1)) := by
      simp only [trReview]
      rw [if_neg (by
        rintro ⟨_, h⟩
        linarith), if_pos ⟨h1, hdv⟩, minEvent, e, if_pos]
      have := mul_le_mul_of_nonneg_left q1 hdt.le
      simp only
      linarith
    rw [ev]
    refine ⟨?_, ?_, Or.inr ?_⟩
    · have := mul_pos hdt q0
      linarith
    · have := mul_le_mul_of_nonneg_left q1 hdt.le
      linarith
    · rw [line]
      have := hdt.ne'
      have := hdv.ne
      field_simp
      ring

/-- If it has not, the announced time (if any) is behind the step: where the line, prolonged, meets a
threshold.  No step is thrown away for a switch that does not switch. -/
theorem no_crossing_future (m : Model) (s : Sw) (x : ℚ) (ht : s.t1 < s.t0) (hn : s.t0 < m.never) (hsw : ¬ Switches m s x) :
    s.t0 < (trReview m x s).event := by
  have hdt : 0 < s.t0 - s.t1 := by linarith
  have key : ∀ e, s.t0 < e → s.t0 < (minEvent e { s with event := m.never, in0 := x }).event := by
    intro e he
    unfold minEvent
    split
    · exact he
    · exact hn
  simp only [trReview]
  split
  · rename_i h
    refine key _ ?_
    have h2 : x < m.von := not_le.mp fun h3 => hsw (Or.inl ⟨h.1, h3⟩)
    have q1 : 1 < (m.von - s.in1) / (x - s.in1) := by
      rw [one_lt_div h.2]
      linarith
    have := mul_lt_mul_of_pos_left q1 hdt
    have e : (s.t0 - s.t1) * (m.von - s.in1) / (x - s.in1) = (s.t0 - s.t1) * ((m.von - s.in1) / (x - s.in1)) := by ring
    rw [e]
    linarith
  · split
    · rename_i h
      refine key _ ?_
      have h2 : m.voff < x := not_le.mp fun h3 => hsw (Or.inr ⟨h.1, h3⟩)
      have q1 : 1 < (m.voff - s.in1) / (x - s.in1) := by
        rw [one_lt_div_of_neg h.2]
        linarith
      have := mul_lt_mul_of_pos_left q1 hdt
      have e : (s.t0 - s.t1) * (m.voff - s.in1) / (x - s.in1) = (s.t0 - s.t1) * ((m.voff - s.in1) / (x - s.in1)) := by ring
      rw [e]
      linarith
    · exact hn

/-! ## with the step control -/

/-- The step control accepts a step in which the switch switches only if the crossing is at most four
minimum steps before its end (whatever else the circuit asks for, `ev` being the earliest event
announced by any device); then the switch changes its state at the beginning of the next step. -/
theorem accepted_crossing (m : Model) (s : Sw) (x : ℚ) (hd : Decided m s) (ht : s.t1 < s.t0) (hv : m.voff < m.von)
    (hn : s.t0 < m.never) (hsw : Switches m s x) (c : Trans.Cfg) (hc : 0 < c.dtmin) (tr : Trans.St)
    (h0 : tr.time0 = s.t0) (h1 : tr.time1 = s.t1) (ev er : ℚ) (hev : ev ≤ (trReview m x s).event)
    (hacc : (Trans.review c ev er tr).2 = true) (t' : ℚ) :
    s.t0 - (trReview m x s).event ≤ 4 * c.dtmin ∧
    (trAdvance m t' (trReview m x s)).st0 = (if m.von ≤ x then .on else .off) := by
  obtain ⟨e1, e2, _⟩ := crossing_announced m s x hd ht hv hn hsw
  obtain ⟨a, _, b, _⟩ := trReview_keeps m x s
  constructor
  · by_contra hcon
    have hlate : 4 * c.dtmin < s.t0 - (trReview m x s).event := not_le.mp hcon
    simp only [Trans.review, Bool.and_eq_true, decide_eq_true_eq, h0, h1] at hacc
    have h2 := hacc.2
    split at h2
    · rename_i h3
      rw [if_neg (by
        rintro ⟨h4, _⟩
        linarith)] at h2
      linarith
    · rename_i h3
      rw [if_neg (by
        rintro ⟨h4, _⟩
        linarith)] at h2
      linarith
  · rw [trAdvance_st0, b, a]
    by_cases h2 : m.von ≤ x
    · rw [if_pos h2, if_pos h2]
    · rw [if_neg h2, if_neg h2, if_pos]
      rcases hsw with ⟨_, h3⟩ | ⟨_, h3⟩
      · exact absurd h3 h2
      · exact h3

/-- A step that is thrown away for the switch is tried again no later than the crossing (or two minimum
steps after its beginning): the ambiguous event that limits the next try is that time. -/
theorem rejected_refines (m : Model) (s : Sw) (x : ℚ) (hd : Decided m s) (ht : s.t1 < s.t0) (hv : m.voff < m.von)
    (hn : s.t0 < m.never) (hsw : Switches m s x) (c : Trans.Cfg) (hc : 0 < c.dtmin) (tr : Trans.St)
    (h0 : tr.time0 = s.t0) (h1 : tr.time1 = s.t1) (er : ℚ)
    (hearly : (trReview m x s).event < s.t0 - 2 * c.dtmin) (hlong : s.t1 + 4 * c.dtmin < s.t0) :
    (Trans.review c (trReview m x s).event er tr).2 = false ∧
    (Trans.review c (trReview m x s).event er tr).1.amb = max (trReview m x s).event (s.t1 + 2 * c.dtmin) := by
  obtain ⟨e1, e2, _⟩ := crossing_announced m s x hd ht hv hn hsw
  have hamb : (Trans.review c (trReview m x s).event er tr).1.amb = max (trReview m x s).event (s.t1 + 2 * c.dtmin) := by
    simp only [Trans.review, h0, h1]
    split
    · rename_i h2
      rw [if_neg (by
        rintro ⟨h4, _⟩
        linarith), max_eq_right h2.le]
    · rename_i h2
      rw [if_neg (by
        rintro ⟨h4, _⟩
        linarith), max_eq_left (not_lt.mp h2)]
  refine ⟨?_, hamb⟩
  have hlt : (Trans.review c (trReview m x s).event er tr).1.amb < s.t0 := by
    rw [hamb, max_lt_iff]
    constructor <;> linarith
  have hdef : (Trans.review c (trReview m x s).event er tr).2 =
      (decide (tr.time0 < (Trans.review c (trReview m x s).event er tr).1.err) &&
       decide (tr.time0 < (Trans.review c (trReview m x s).event er tr).1.amb)) := rfl
  rw [hdef, h0, decide_eq_false (not_lt.mpr hlt.le), Bool.and_false]

/-! ## where it is wrong -/

/-- The two analyses do not agree about the thresholds: a control that sits on the threshold leaves the
switch off at the operating point, and the first time step turns it on. -/
theorem threshold_differs (m : Model) (hic : m.ic = .off) (hv : m.voff ≤ m.von) (s : Sw) (t : ℚ) :
    (run m [.begin, .static m.von] s).st0 = .off ∧
    (run m [.begin, .static m.von, .review m.von, .advance t] s).st0 = .on := by
  have h1 : (run m [.begin, .static m.von] s).st0 = .off := by
    have h2 := dc_state m [.static m.von] (by
      intro o ho
      rw [List.mem_singleton.mp ho]
      trivial) (trBegin m s) rfl
    have h3 : run m [.begin, .static m.von] s = run m [.static m.von] (trBegin m s) := rfl
    rw [h3, h2]
    simp only [current, committedDc, Option.toList, List.append_nil]
    rw [decidedStrict_cons, if_neg (lt_irrefl _), if_neg (not_lt.mpr hv)]
    exact hic
  refine ⟨h1, ?_⟩
  have : run m [.begin, .static m.von, .review m.von, .advance t] s =
      trAdvance m t (trReview m m.von (run m [.begin, .static m.von] s)) := rfl
  rw [this, trAdvance_st0, (trReview_keeps _ _ _).2.2.1, if_pos le_rfl]

/-- A negative `vh` puts the off threshold above the on threshold; nothing rejects it.  Then, while the
control falls between them, the switch stays on but announces an event before the step began, so that
the step control throws away every step longer than four minimum steps. -/
theorem negative_hysteresis_wrong (m : Model) (hv : m.von < m.voff) (s : Sw) (x : ℚ) (hon : s.st0 = .on)
    (hin : m.von ≤ x) (hfall : x < s.in1) (hlow : s.in1 < m.voff) (ht : s.t1 < s.t0) (hn : s.t0 < m.never)
    (c : Trans.Cfg) (hc : 0 < c.dtmin) (tr : Trans.St) (h0 : tr.time0 = s.t0) (h1 : tr.time1 = s.t1)
    (hlong : s.t1 + 4 * c.dtmin < s.t0) (er t' : ℚ) :
    (trAdvance m t' (trReview m x s)).st0 = .on ∧ (trReview m x s).event < s.t1 ∧
    (Trans.review c (trReview m x s).event er tr).2 = false := by
  have hdt : 0 < s.t0 - s.t1 := by linarith
  have hdv : x - s.in1 < 0 := by linarith
  have q : (s.t0 - s.t1) * (m.voff - s.in1) / (x - s.in1) < 0 :=
    div_neg_of_pos_of_neg (mul_pos hdt (by linarith)) hdv
  have ev : (trReview m x s).event = s.t1 + (s.t0 - s.t1) * (m.voff - s.in1) / (x - s.in1) := by
    simp only [trReview]
    rw [if_neg (by
      rintro ⟨h, _⟩
      exact h hon), if_pos ⟨by rw [hon]; decide, hdv⟩, minEvent, if_pos]
    simp only
    linarith
  refine ⟨?_, by rw [ev]; linarith, ?_⟩
  · rw [trAdvance_st0, (trReview_keeps m x s).2.2.1, if_pos hin]
  · have hamb : (Trans.review c (trReview m x s).event er tr).1.amb = s.t1 + 2 * c.dtmin := by
      simp only [Trans.review, h0, h1]
      have h5 : (trReview m x s).event < s.t1 + 2 * c.dtmin := by
        rw [ev]
        linarith
      rw [if_pos h5, if_neg (by
        rintro ⟨h4, _⟩
        linarith)]
    have hdef : (Trans.review c (trReview m x s).event er tr).2 =
        (decide (tr.time0 < (Trans.review c (trReview m x s).event er tr).1.err) &&
         decide (tr.time0 < (Trans.review c (trReview m x s).event er tr).1.amb)) := rfl
    rw [hdef, h0, hamb, decide_eq_false (show ¬ s.t0 < s.t1 + 2 * c.dtmin by linarith), Bool.and_false]

/-! ## examples -/

/-- thresholds 1 and -1 -/
def exModel : Model := ⟨1, -1, 1, 1000, .off, 10 ^ 30⟩

/-- up through the band, back into it (still on), out below, with a step that is thrown away -/
def exOps : List Op :=
  [.advance 1, .dynamic, .review 2, .regress (1/2), .dynamic, .review 1,
   .advance 2, .dynamic, .review 0, .advance 3, .dynamic, .review (-2), .advance 4]

example : (run exModel exOps (precalc exModel (init exModel))).st0 = .off ∧
    (run exModel (exOps.take 10) (precalc exModel (init exModel))).st0 = .on ∧
    committed exOps 0 [] = [-2, 0, 1, 0] := by decide +kernel

example : (exModel.von, exModel.voff) = thresholds 0 1 none none := by
  simp [exModel, thresholds]

example : ∀ o ∈ exOps, Transient o := by
  intro o ho
  simp only [exOps, List.mem_cons, List.not_mem_nil, or_false] at ho
  rcases ho with rfl | rfl | rfl | rfl | rfl | rfl | rfl | rfl | rfl | rfl | rfl | rfl | rfl <;> trivial

/-- the hypotheses of `accepted_crossing` and `rejected_refines`: a step from 0 to 1, input from 0 to 3 -/
example : Decided exModel (trAdvance exModel 1 (trReview exModel 0 (precalc exModel (init exModel)))) ∧
    Switches exModel (trAdvance exModel 1 (trReview exModel 0 (precalc exModel (init exModel)))) 3 ∧
    (trReview exModel 3 (trAdvance exModel 1 (trReview exModel 0 (precalc exModel (init exModel))))).event = 1 / 3 := by
  refine ⟨decided_advance _ _ _, Or.inl ⟨?_, ?_⟩, ?_⟩
  · decide +kernel
  · decide +kernel
  · decide +kernel

end Gnucap.Switch
