import Verif.MeasureModel
import Mathlib.Analysis.SpecialFunctions.Integrals.Basic
import Mathlib.MeasureTheory.Integral.IntervalIntegral.Basic
import Mathlib.Tactic.Linarith
import Mathlib.Tactic.Ring
import Mathlib.Tactic.FieldSimp
import Mathlib.Tactic.NormNum
import Mathlib.Tactic.Positivity
import Mathlib.Tactic.LinearCombination

/-!
# Measurements mean what they say (C37)
-/
set_option linter.unusedSectionVars false
namespace Gnucap.Measure

section field
variable {F : Type _} [Field F] [LinearOrder F] [IsStrictOrderedRing F]

/-- recorded in order of time -/
def InOrder (w : List (Pt F)) : Prop := w.Pairwise (fun p q => p.1 < q.1)

/-- **C37, the window** holds exactly the recorded points from `after` to `before`, in order. -/
theorem mem_window (w : List (Pt F)) (h : InOrder w) (after before : F) (p : Pt F) :
    p ∈ window w after before ↔ p ∈ w ∧ after ≤ p.1 ∧ p.1 ≤ before := by
  unfold window
  have take : ∀ w : List (Pt F), InOrder w → (p ∈ w.takeWhile (fun p => decide (p.1 ≤ before)) ↔ p ∈ w ∧ p.1 ≤ before) := by
    intro w hw
    induction w with
    | nil => simp
    | cons q w ih =>
      obtain ⟨h1, h2⟩ := List.pairwise_cons.mp hw
      rw [List.takeWhile_cons]
      by_cases hq : q.1 ≤ before
      · simp only [hq, decide_true, if_true, List.mem_cons, ih h2]
        constructor
        · rintro (rfl | ⟨a, b⟩)
          · exact ⟨Or.inl rfl, hq⟩
          · exact ⟨Or.inr a, b⟩
        · rintro ⟨rfl | a, b⟩
          · exact Or.inl rfl
          · exact Or.inr ⟨a, b⟩
      · simp only [hq, decide_false, Bool.false_eq_true, if_false, List.not_mem_nil, false_iff, List.mem_cons, not_and]
        rintro (rfl | hp) hb
        · exact hq hb
        · exact hq ((h1 p hp).le.trans hb)
  have drop : ∀ w : List (Pt F), InOrder w → (p ∈ w.dropWhile (fun p => decide (p.1 < after)) ↔ p ∈ w ∧ after ≤ p.1) := by
    intro w hw
    induction w with
    | nil => simp
    | cons q w ih =>
      obtain ⟨h1, h2⟩ := List.pairwise_cons.mp hw
      rw [List.dropWhile_cons]
      by_cases hq : q.1 < after
      · simp only [hq, decide_true, if_true, List.mem_cons, ih h2]
        constructor
        · rintro ⟨a, b⟩; exact ⟨Or.inr a, b⟩
        · rintro ⟨rfl | a, b⟩
          · exact absurd hq (not_lt.mpr b)
          · exact ⟨a, b⟩
      · simp only [hq, decide_false, Bool.false_eq_true, if_false, List.mem_cons]
        constructor
        · rintro (rfl | hp)
          · exact ⟨Or.inl rfl, not_lt.mp hq⟩
          · exact ⟨Or.inr hp, (not_lt.mp hq).trans (h1 p hp).le⟩
        · rintro ⟨a, _⟩; exact a
  have hs : InOrder (w.takeWhile (fun p => decide (p.1 ≤ before))) := List.Pairwise.sublist (List.takeWhile_sublist _) h
  rw [drop _ hs, take w h]
  constructor
  · rintro ⟨⟨a, b⟩, c⟩; exact ⟨a, c, b⟩
  · rintro ⟨a, b, c⟩; exact ⟨⟨a, c⟩, b⟩

theorem window_inOrder (w : List (Pt F)) (h : InOrder w) (after before : F) : InOrder (window w after before) :=
  List.Pairwise.sublist ((List.dropWhile_sublist _).trans (List.takeWhile_sublist _)) h

/-! ### extremes -/

/-- (specification) the recorded point with the largest value, the first (last) one of them -/
def Greatest (last : Bool) (l : List (Pt F)) (t m : F) : Prop :=
  ∃ l1 l2, l = l1 ++ (t, m) :: l2 ∧ (∀ q ∈ l1, if last then q.2 ≤ m else q.2 < m) ∧ (∀ q ∈ l2, if last then q.2 < m else q.2 ≤ m)

theorem max_loop (last : Bool) (l : List (Pt F)) (t0 m0 : F) (hm : ∀ p ∈ l, m0 < p.2) :
    if l = [] then l.foldl (maxStep last) (t0, m0) = (t0, m0)
    else Greatest last l (l.foldl (maxStep last) (t0, m0)).1 (l.foldl (maxStep last) (t0, m0)).2 := by
  induction l using List.reverseRecOn with
  | nil => simp
  | append_singleton l p ih =>
    rw [if_neg (by simp)]
    rw [List.foldl_append]
    simp only [List.foldl_cons, List.foldl_nil]
    have ih := ih (fun q hq => hm q (by simp [hq]))
    have hp := hm p (by simp)
    by_cases hl : l = []
    · subst hl
      simp only [List.foldl_nil, maxStep, hp, true_or, if_true]
      exact ⟨[], [], by simp, by simp, by simp⟩
    · rw [if_neg hl] at ih
      generalize l.foldl (maxStep last) (t0, m0) = s at *
      obtain ⟨l1, l2, e, h1, h2⟩ := ih
      unfold maxStep
      split
      · rename_i hc
        refine ⟨l, [], by simp, ?_, by simp⟩
        intro q hq
        rw [e] at hq
        have hqm : q.2 ≤ s.2 := by
          rcases List.mem_append.mp hq with hq | hq
          · have := h1 q hq
            cases last <;> simp at this <;> linarith
          · rcases List.mem_cons.mp hq with rfl | hq
            · exact le_rfl
            · have := h2 q hq
              cases last <;> simp at this <;> linarith
        rcases hc with hc | ⟨hc1, hc2⟩
        · cases last <;> simp <;> linarith
        · rw [hc1]; simp; rw [hc2]; exact hqm
      · rename_i hc
        push Not at hc
        refine ⟨l1, l2 ++ [p], by rw [e]; simp, h1, ?_⟩
        intro q hq
        rcases List.mem_append.mp hq with hq | hq
        · exact h2 q hq
        · have : q = p := by simpa using hq
          subst this
          cases last
          · simpa using hc.1
          · simpa using lt_of_le_of_ne hc.1 (hc.2 rfl)

/-- **C37, max**: the largest recorded value in the window, and the time of its first (last) occurrence; without points in the
window `-BIGBIG`. -/
theorem max_correct (big : F) (last : Bool) (w : List (Pt F)) (after before : F) (hv : ∀ p ∈ w, -big < p.2) :
    (window w after before = [] → (max big last w after before).2 = -big) ∧
    (window w after before ≠ [] → Greatest last (window w after before) (max big last w after before).1 (max big last w after before).2) := by
  have hsub : ∀ p ∈ window w after before, -big < p.2 := fun p hp =>
    hv p (((List.dropWhile_sublist _).trans (List.takeWhile_sublist _)).subset hp)
  have h := max_loop last (window w after before) (if last then -big else big) (-big) hsub
  constructor
  · intro he; rw [if_pos he] at h; unfold max; rw [h]
  · intro he; rw [if_neg he] at h; exact h

/-- (specification) likewise the smallest -/
def Least (last : Bool) (l : List (Pt F)) (t m : F) : Prop :=
  ∃ l1 l2, l = l1 ++ (t, m) :: l2 ∧ (∀ q ∈ l1, if last then m ≤ q.2 else m < q.2) ∧ (∀ q ∈ l2, if last then m < q.2 else m ≤ q.2)

/-- negating the values turns `min` into `max` -/
def neg (p : Pt F) : Pt F := (p.1, -p.2)

theorem min_fold (last : Bool) (l : List (Pt F)) (t0 m0 : F) :
    l.foldl (minStep last) (t0, m0) =
      (((l.map neg).foldl (maxStep last) (t0, -m0)).1, -((l.map neg).foldl (maxStep last) (t0, -m0)).2) := by
  induction l generalizing t0 m0 with
  | nil => simp
  | cons p l ih =>
    simp only [List.foldl_cons, List.map_cons]
    have : maxStep last (t0, -m0) (neg p) = ((minStep last (t0, m0) p).1, -(minStep last (t0, m0) p).2) := by
      simp only [maxStep, minStep, neg, neg_lt_neg_iff, neg_inj]
      split <;> rfl
    rw [this, ← ih]

/-- **C37, min** -/
theorem min_correct (big : F) (last : Bool) (w : List (Pt F)) (after before : F) (hv : ∀ p ∈ w, p.2 < big) :
    (window w after before = [] → (min big last w after before).2 = big) ∧
    (window w after before ≠ [] → Least last (window w after before) (min big last w after before).1 (min big last w after before).2) := by
  have hsub : ∀ p ∈ window w after before, p.2 < big := fun p hp =>
    hv p (((List.dropWhile_sublist _).trans (List.takeWhile_sublist _)).subset hp)
  unfold min
  generalize window w after before = l at *
  rw [min_fold]
  have h := max_loop last (l.map neg) (if last then -big else big) (-big) (by
    intro p hp
    obtain ⟨q, hq, rfl⟩ := List.mem_map.mp hp
    have := hsub q hq
    simpa [neg] using this)
  constructor
  · intro he; subst he; simp
  · intro he
    rw [if_neg (by simpa using he)] at h
    obtain ⟨l1, l2, e, h1, h2⟩ := h
    generalize ((l.map neg).foldl (maxStep last) (if last then -big else big, -big)) = s at *
    have hl : l = l1.map neg ++ (s.1, -s.2) :: l2.map neg := by
      have := congrArg (List.map neg) e
      simp only [List.map_map, List.map_append, List.map_cons] at this
      have hid : (neg ∘ neg : Pt F → Pt F) = id := by funext p; simp [neg]
      rw [hid, List.map_id] at this
      exact this
    refine ⟨l1.map neg, l2.map neg, hl, ?_, ?_⟩
    · intro q hq
      obtain ⟨r, hr, rfl⟩ := List.mem_map.mp hq
      have := h1 r hr
      cases last <;> simp [neg] at this ⊢ <;> exact this
    · intro q hq
      obtain ⟨r, hr, rfl⟩ := List.mem_map.mp hq
      have := h2 r hr
      cases last <;> simp [neg] at this ⊢ <;> exact this

/-! ### crossings -/

/-- the value is on the near (far) side of the threshold, in the asked direction -/
def Below (slope c : F) (p : Pt F) : Prop := p.2 * slope < c * slope
def Above (slope c : F) (p : Pt F) : Prop := c * slope < p.2 * slope

/-- (specification) there was a point below, and none above since -/
def Armed (slope c : F) (l : List (Pt F)) : Prop :=
  ∃ l1 p l2, l = l1 ++ p :: l2 ∧ Below slope c p ∧ ∀ q ∈ l2, ¬ Above slope c q

theorem armed_nil (slope c : F) : ¬ Armed slope c [] := by
  rintro ⟨l1, p, l2, e, -⟩
  simp at e

theorem armed_snoc (slope c : F) (l : List (Pt F)) (q : Pt F) :
    Armed slope c (l ++ [q]) ↔ Below slope c q ∨ (Armed slope c l ∧ ¬ Above slope c q) := by
  constructor
  · rintro ⟨l1, p, l2, e, h1, h2⟩
    rcases List.eq_nil_or_concat l2 with rfl | ⟨l3, r, rfl⟩
    · left
      have := List.append_inj' e rfl
      have hq : q = p := by simpa using this.2
      rw [hq]; exact h1
    · right
      have e' : l ++ [q] = (l1 ++ p :: l3) ++ [r] := by rw [e]; simp
      have := List.append_inj' e' rfl
      have hq : q = r := by simpa using this.2
      refine ⟨⟨l1, p, l3, this.1, h1, fun x hx => h2 x (by simp [hx])⟩, ?_⟩
      rw [hq]; exact h2 r (by simp)
  · rintro (h | ⟨⟨l1, p, l2, rfl, h1, h2⟩, h⟩)
    · exact ⟨l, q, [], rfl, h, by simp⟩
    · refine ⟨l1, p, l2 ++ [q], by simp, h1, ?_⟩
      intro x hx
      rcases List.mem_append.mp hx with hx | hx
      · exact h2 x hx
      · have : x = q := by simpa using hx
        rw [this]; exact h

/-- (specification) the waveform crosses from the last point of `l1` to `q`, at time `t` -/
def Crosses (slope c : F) (l1 : List (Pt F)) (q : Pt F) : Prop := Armed slope c l1 ∧ Above slope c q

/-- the first crossing -/
def FirstCross (slope c : F) (l : List (Pt F)) (t : F) : Prop :=
  ∃ l1 q l2, l = l1 ++ q :: l2 ∧ Crosses slope c l1 q ∧ (∀ m1 r m2, l1 = m1 ++ r :: m2 → ¬ Crosses slope c m1 r) ∧
    ∃ a, l1.getLast? = some a ∧ t = crossTime c a q

/-- the last crossing -/
def LastCross (slope c : F) (l : List (Pt F)) (t : F) : Prop :=
  ∃ l1 q l2, l = l1 ++ q :: l2 ∧ Crosses slope c l1 q ∧ (∀ m1 r m2, l2 = m1 ++ r :: m2 → ¬ Crosses slope c (l1 ++ q :: m1) r) ∧
    ∃ a, l1.getLast? = some a ∧ t = crossTime c a q

def NoCross (slope c : F) (l : List (Pt F)) : Prop := ∀ m1 r m2, l = m1 ++ r :: m2 → ¬ Crosses slope c m1 r

theorem noCross_snoc (slope c : F) (l : List (Pt F)) (q : Pt F) (h : NoCross slope c l) (hq : ¬ Crosses slope c l q) :
    NoCross slope c (l ++ [q]) := by
  intro m1 r m2 e
  rcases List.eq_nil_or_concat m2 with rfl | ⟨m3, x, rfl⟩
  · have := List.append_inj' e rfl
    have h1 : q = r := by simpa using this.2
    rw [← h1, ← this.1]; exact hq
  · have e' : l ++ [q] = (m1 ++ r :: m3) ++ [x] := by rw [e]; simp
    exact h m1 r m3 (List.append_inj' e' rfl).1

/-- the state of the loop, first crossing asked -/
theorem cross_loop_first (slope c x0 : F) (hs : slope = 1 ∨ slope = -1) (d : Pt F) (l : List (Pt F)) :
    match (l.foldl (crossStep slope c false) ⟨.waiting, d, x0⟩).stat with
    | .waiting => ¬ Armed slope c l ∧ NoCross slope c l ∧ (l.foldl (crossStep slope c false) ⟨.waiting, d, x0⟩).x = x0
    | .ready => Armed slope c l ∧ NoCross slope c l ∧ (l.foldl (crossStep slope c false) ⟨.waiting, d, x0⟩).x = x0 ∧
        l.getLast? = some (l.foldl (crossStep slope c false) ⟨.waiting, d, x0⟩).lower
    | .done => FirstCross slope c l (l.foldl (crossStep slope c false) ⟨.waiting, d, x0⟩).x := by
  have hss : slope * slope = 1 := by rcases hs with rfl | rfl <;> ring
  induction l using List.reverseRecOn with
  | nil => exact ⟨armed_nil _ _, by intro m1 r m2 e; simp at e, rfl⟩
  | append_singleton l p ih =>
    rw [List.foldl_append]
    simp only [List.foldl_cons, List.foldl_nil]
    generalize l.foldl (crossStep slope c false) ⟨.waiting, d, x0⟩ = s at *
    obtain ⟨stat, lower, x⟩ := s
    cases stat with
    | waiting =>
      obtain ⟨h1, h2, h3⟩ := ih
      have hno : ¬ Crosses slope c l p := fun hc => h1 hc.1
      simp only [crossStep]
      by_cases hb : p.2 * slope < c * slope
      · simp only [hb, if_true]
        exact ⟨(armed_snoc _ _ _ _).mpr (Or.inl hb), noCross_snoc _ _ _ _ h2 hno, h3, by simp⟩
      · simp only [hb, if_false]
        refine ⟨fun ha => ?_, noCross_snoc _ _ _ _ h2 hno, h3⟩
        rcases (armed_snoc _ _ _ _).mp ha with ha | ha
        · exact hb ha
        · exact h1 ha.1
    | ready =>
      obtain ⟨h1, h2, h3, h4⟩ := ih
      simp only [crossStep]
      by_cases ha : c * slope < p.2 * slope
      · simp only [ha, if_true]
        refine ⟨l, p, [], by simp, ⟨h1, ha⟩, h2, lower, h4, ?_⟩
        rw [mul_assoc, hss, mul_one]
      · simp only [ha, if_false]
        exact ⟨(armed_snoc _ _ _ _).mpr (Or.inr ⟨h1, ha⟩), noCross_snoc _ _ _ _ h2 (fun hc => ha hc.2), h3, by simp⟩
    | done =>
      simp only [crossStep]
      obtain ⟨l1, q, l2, e, h1, h2, h3⟩ := ih
      exact ⟨l1, q, l2 ++ [p], by rw [e]; simp, h1, h2, h3⟩

/-- the state of the loop, last crossing asked -/
theorem cross_loop_last (slope c x0 : F) (hs : slope = 1 ∨ slope = -1) (d : Pt F) (l : List (Pt F)) :
    (match (l.foldl (crossStep slope c true) ⟨.waiting, d, x0⟩).stat with
    | .waiting => ¬ Armed slope c l
    | .ready => Armed slope c l ∧ l.getLast? = some (l.foldl (crossStep slope c true) ⟨.waiting, d, x0⟩).lower
    | .done => False) ∧
    ((NoCross slope c l ∧ (l.foldl (crossStep slope c true) ⟨.waiting, d, x0⟩).x = x0) ∨
      LastCross slope c l (l.foldl (crossStep slope c true) ⟨.waiting, d, x0⟩).x) := by
  have hss : slope * slope = 1 := by rcases hs with rfl | rfl <;> ring
  induction l using List.reverseRecOn with
  | nil => exact ⟨armed_nil _ _, Or.inl ⟨by intro m1 r m2 e; simp at e, rfl⟩⟩
  | append_singleton l p ih =>
    rw [List.foldl_append]
    simp only [List.foldl_cons, List.foldl_nil]
    generalize l.foldl (crossStep slope c true) ⟨.waiting, d, x0⟩ = s at *
    obtain ⟨stat, lower, x⟩ := s
    -- no new crossing: what was last stays last
    have keep : ¬ Crosses slope c l p → ((NoCross slope c l ∧ x = x0) ∨ LastCross slope c l x) →
        ((NoCross slope c (l ++ [p]) ∧ x = x0) ∨ LastCross slope c (l ++ [p]) x) := by
      intro hno h
      rcases h with ⟨h1, h2⟩ | ⟨l1, q, l2, e, h1, h2, h3⟩
      · exact Or.inl ⟨noCross_snoc _ _ _ _ h1 hno, h2⟩
      · refine Or.inr ⟨l1, q, l2 ++ [p], by rw [e]; simp, h1, ?_, h3⟩
        intro m1 r m2 em
        rcases List.eq_nil_or_concat m2 with rfl | ⟨m3, y, rfl⟩
        · have := List.append_inj' em rfl
          have h5 : p = r := by simpa using this.2
          rw [← h5, ← this.1, ← e]; exact hno
        · have e' : l2 ++ [p] = (m1 ++ r :: m3) ++ [y] := by rw [em]; simp
          exact h2 m1 r m3 (List.append_inj' e' rfl).1
    have hup : Above slope c p → ¬ Below slope c p := fun h1 h2 => lt_asymm h1 h2
    cases stat with
    | waiting =>
      obtain ⟨h1, h2⟩ := ih
      have hno : ¬ Crosses slope c l p := fun hc => h1 hc.1
      simp only [crossStep]
      by_cases hb : p.2 * slope < c * slope
      · simp only [hb, if_true]
        exact ⟨⟨(armed_snoc _ _ _ _).mpr (Or.inl hb), by simp⟩, keep hno h2⟩
      · simp only [hb, if_false]
        refine ⟨fun ha => ?_, keep hno h2⟩
        rcases (armed_snoc _ _ _ _).mp ha with ha | ha
        · exact hb ha
        · exact h1 ha.1
    | ready =>
      obtain ⟨⟨h1, h4⟩, h2⟩ := ih
      simp only [crossStep]
      by_cases ha : c * slope < p.2 * slope
      · simp only [ha, if_true]
        refine ⟨fun hc => ?_, Or.inr ⟨l, p, [], by simp, ⟨h1, ha⟩, by intro m1 r m2 e; simp at e, lower, h4, ?_⟩⟩
        · rcases (armed_snoc _ _ _ _).mp hc with hc | hc
          · exact hup ha hc
          · exact hc.2 ha
        · rw [mul_assoc, hss, mul_one]
      · simp only [ha, if_false]
        exact ⟨⟨(armed_snoc _ _ _ _).mpr (Or.inr ⟨h1, ha⟩), by simp⟩, keep (fun hc => ha hc.2) h2⟩
    | done => exact absurd ih.1 id

/-- **C37, cross**: the first (last) crossing of the threshold in the asked direction among the points of the window, or
`±BIGBIG` if there is none. -/
theorem cross_correct (big slope c : F) (hs : slope = 1 ∨ slope = -1) (w : List (Pt F)) (after before : F) :
    ((NoCross slope c (window w after before) ∧ cross big slope c false w after before = big) ∨
      FirstCross slope c (window w after before) (cross big slope c false w after before)) ∧
    ((NoCross slope c (window w after before) ∧ cross big slope c true w after before = -big) ∨
      LastCross slope c (window w after before) (cross big slope c true w after before)) := by
  unfold cross
  generalize window w after before = l
  constructor
  · have h := cross_loop_first slope c big hs (0, 0) l
    simp only [Bool.false_eq_true, if_false]
    generalize l.foldl (crossStep slope c false) ⟨.waiting, (0, 0), big⟩ = s at *
    obtain ⟨stat, lower, x⟩ := s
    cases stat with
    | waiting => exact Or.inl ⟨h.2.1, h.2.2⟩
    | ready => exact Or.inl ⟨h.2.1, h.2.2.1⟩
    | done => exact Or.inr h
  · exact (cross_loop_last slope c (-big) hs (0, 0) l).2

/-- **C37, the crossing is one**: at the time given by `FirstCross`/`LastCross`, which lies between the two points, the straight
line between them takes the threshold. -/
theorem cross_on_line (slope c : F) (hs : slope = 1 ∨ slope = -1) (l1 : List (Pt F)) (q a : Pt F) (h : Crosses slope c l1 q)
    (ha : l1.getLast? = some a) (ho : InOrder (l1 ++ [q])) :
    a.1 ≤ crossTime c a q ∧ crossTime c a q < q.1 ∧
    a.2 + (crossTime c a q - a.1) * ((q.2 - a.2) / (q.1 - a.1)) = c := by
  obtain ⟨l0, rfl⟩ : ∃ l0, l1 = l0 ++ [a] := by
    rcases List.eq_nil_or_concat l1 with rfl | ⟨l0, b, rfl⟩
    · simp at ha
    · simp at ha; exact ⟨l0, by simp [ha]⟩
  have hlt : a.1 < q.1 := by
    have := List.pairwise_append.mp ho
    exact this.2.2 a (by simp) q (by simp)
  have hna : ¬ Above slope c a := by
    rcases (armed_snoc _ _ _ _).mp h.1 with hb | hb
    · exact fun hc => lt_asymm hb hc
    · exact hb.2
  have h1 := not_lt.mp hna
  have h2 := h.2
  unfold Above at h2
  have key : (0 ≤ (c - a.2) / (q.2 - a.2)) ∧ ((c - a.2) / (q.2 - a.2) < 1) ∧ q.2 - a.2 ≠ 0 := by
    rcases hs with rfl | rfl
    · have hp : 0 < q.2 - a.2 := by linarith
      exact ⟨div_nonneg (by linarith) hp.le, (div_lt_one hp).mpr (by linarith), hp.ne'⟩
    · have hp : q.2 - a.2 < 0 := by linarith
      exact ⟨div_nonneg_of_nonpos (by linarith) hp.le, (div_lt_one_of_neg hp).mpr (by linarith), hp.ne⟩
  have hd : 0 < q.1 - a.1 := by linarith
  unfold crossTime
  refine ⟨by nlinarith [key.1], by nlinarith [key.2.1], ?_⟩
  have := key.2.2
  have := hd.ne'
  field_simp
  ring

/-! ### slew rate -/

/-- (specification) the waveform, as straight lines between recorded points, takes the value `v` at time `t` -/
def OnWave (l : List (Pt F)) (t v : F) : Prop :=
  ∃ l1 p q l2, l = l1 ++ p :: q :: l2 ∧ p.1 ≤ t ∧ t ≤ q.1 ∧ v = p.2 + (t - p.1) * ((q.2 - p.2) / (q.1 - p.1))

theorem onWave_snoc {l : List (Pt F)} {t v : F} (h : OnWave l t v) (p : Pt F) : OnWave (l ++ [p]) t v := by
  obtain ⟨l1, a, q, l2, rfl, h⟩ := h
  exact ⟨l1, a, q, l2 ++ [p], by simp, h⟩

/-- between a point before (or at) `v` and one beyond, the line takes `v` -/
theorem onWave_line {l : List (Pt F)} {a p : Pt F} (ha : l.getLast? = some a) (ho : a.1 < p.1) {v : F}
    (h : (a.2 ≤ v ∧ v < p.2) ∨ (p.2 < v ∧ v ≤ a.2)) :
    OnWave (l ++ [p]) (crossTime v a p) v ∧ a.1 ≤ crossTime v a p ∧ crossTime v a p < p.1 := by
  obtain ⟨l0, rfl⟩ : ∃ l0, l = l0 ++ [a] := by
    rcases List.eq_nil_or_concat l with rfl | ⟨l0, b, rfl⟩
    · simp at ha
    · simp at ha; exact ⟨l0, by simp [ha]⟩
  have key : (0 ≤ (v - a.2) / (p.2 - a.2)) ∧ ((v - a.2) / (p.2 - a.2) < 1) ∧ p.2 - a.2 ≠ 0 := by
    rcases h with ⟨h1, h2⟩ | ⟨h1, h2⟩
    · have hp : 0 < p.2 - a.2 := by linarith
      exact ⟨div_nonneg (by linarith) hp.le, (div_lt_one hp).mpr (by linarith), hp.ne'⟩
    · have hp : p.2 - a.2 < 0 := by linarith
      exact ⟨div_nonneg_of_nonpos (by linarith) hp.le, (div_lt_one_of_neg hp).mpr (by linarith), hp.ne⟩
  have hd : 0 < p.1 - a.1 := by linarith
  have b1 : a.1 ≤ crossTime v a p := by unfold crossTime; nlinarith [key.1]
  have b2 : crossTime v a p < p.1 := by unfold crossTime; nlinarith [key.2.1]
  refine ⟨⟨l0, a, p, [], by simp, b1, b2.le, ?_⟩, b1, b2⟩
  unfold crossTime
  have := key.2.2
  have := hd.ne'
  field_simp
  ring

/-- both times found -/
def SlewFound (a b : F) (l : List (Pt F)) (t1 t2 : F) : Prop := t1 < t2 ∧ OnWave l t1 a ∧ OnWave l t2 b

theorem slew_loop (a b big : F) (hab : a ≠ b) (last : Bool) (d : Pt F) (l : List (Pt F)) (ho : InOrder l) :
    let s := l.foldl (slewStep a b last) ⟨.waiting, d, big, big, big⟩
    (s.stat = .done ∨ l = [] ∨ l.getLast? = some s.lower) ∧
    (match s.stat with
     | .waiting => True
     | .ready => inOrder s.lower.2 a b = true
     | .inRange => OnWave l s.try_ a ∧ s.try_ < s.lower.1 ∧ inOrder a s.lower.2 b = true
     | .done => True) ∧
    (s.stat = .ready ∨ s.stat = .inRange → l ≠ []) ∧
    ((s.start = big ∧ s.stop = big) ∨ SlewFound a b l s.start s.stop) := by
  induction l using List.reverseRecOn with
  | nil => exact ⟨Or.inr (Or.inl rfl), trivial, (by rintro (h | h) <;> cases h), Or.inl ⟨rfl, rfl⟩⟩
  | append_singleton l p ih =>
    rw [List.foldl_append]
    simp only [List.foldl_cons, List.foldl_nil]
    have ih := ih (List.pairwise_append.mp ho).1
    generalize l.foldl (slewStep a b last) ⟨.waiting, d, big, big, big⟩ = s at *
    obtain ⟨stat, lower, try_, start, stop⟩ := s
    obtain ⟨i1, i2, i3, i4⟩ := ih
    have keep : ((start = big ∧ stop = big) ∨ SlewFound a b l start stop) →
        ((start = big ∧ stop = big) ∨ SlewFound a b (l ++ [p]) start stop) := by
      rintro (h | ⟨h1, h2, h3⟩)
      · exact Or.inl h
      · exact Or.inr ⟨h1, onWave_snoc h2 p, onWave_snoc h3 p⟩
    have hlast : l ≠ [] → stat ≠ .done → l.getLast? = some lower ∧ lower.1 < p.1 := by
      intro h1 h2
      have h3 : l.getLast? = some lower := by
        rcases i1 with h | h | h
        · exact absurd h h2
        · exact absurd h h1
        · exact h
      refine ⟨h3, ?_⟩
      have := List.pairwise_append.mp ho
      exact this.2.2 lower (List.mem_of_getLast? h3) p (by simp)
    cases stat with
    | waiting =>
      simp only [slewStep]
      by_cases c1 : inOrder p.2 a b = true
      · simp only [c1, if_true]
        exact ⟨Or.inr (Or.inr (by simp)), trivial, by simp, keep i4⟩
      · simp only [c1, Bool.false_eq_true, if_false]
        exact ⟨Or.inr (Or.inr (by simp)), trivial, (by rintro (h | h) <;> cases h), keep i4⟩
    | ready =>
      obtain ⟨g1, g2⟩ := hlast (i3 (Or.inl rfl)) (by simp)
      simp only [slewStep]
      simp only at i2
      by_cases c1 : inOrder p.2 a b = true
      · simp only [c1, if_true]
        exact ⟨Or.inr (Or.inr (by simp)), trivial, by simp, keep i4⟩
      · simp only [c1, Bool.false_eq_true, if_false]
        by_cases c2 : inOrder a p.2 b = true
        · simp only [c2, if_true]
          have hl : (lower.2 ≤ a ∧ a < p.2) ∨ (p.2 < a ∧ a ≤ lower.2) := by
            simp only [inOrder, decide_eq_true_eq, not_or, not_and, not_le] at i2 c1 c2
            rcases lt_or_gt_of_ne hab with hlt | hgt
            · left
              have h1 : lower.2 ≤ a := by rcases i2 with h | h <;> linarith [h.1, h.2]
              have h2 : a ≤ p.2 := by rcases c2 with h | h <;> linarith [h.1, h.2]
              refine ⟨h1, lt_of_le_of_ne h2 fun he => ?_⟩
              have := c1.1 (by rw [he]); linarith
            · right
              have h1 : a ≤ lower.2 := by rcases i2 with h | h <;> linarith [h.1, h.2]
              have h2 : p.2 ≤ a := by rcases c2 with h | h <;> linarith [h.1, h.2]
              refine ⟨lt_of_le_of_ne h2 fun he => ?_, h1⟩
              have := c1.2 hgt.le; linarith
          obtain ⟨w1, w2, w3⟩ := onWave_line g1 g2 hl
          exact ⟨Or.inr (Or.inr (by simp)), ⟨w1, w3, trivial⟩, by simp, keep i4⟩
        · simp only [c2, Bool.false_eq_true, if_false]
          by_cases c3 : inOrder a b p.2 = true
          · simp only [c3, if_true]
            refine ⟨Or.inl trivial, trivial, (by rintro (h | h) <;> cases h), Or.inr ?_⟩
            have hl : ((lower.2 ≤ a ∧ a < b ∧ b < p.2) ∨ (p.2 < b ∧ b < a ∧ a ≤ lower.2)) := by
              simp only [inOrder, decide_eq_true_eq, not_or, not_and, not_le] at i2 c1 c2 c3
              rcases lt_or_gt_of_ne hab with hlt | hgt
              · left
                have h1 : lower.2 ≤ a := by rcases i2 with h | h <;> linarith [h.1, h.2]
                have h2 : b ≤ p.2 := by rcases c3 with h | h <;> linarith [h.1, h.2]
                exact ⟨h1, hlt, c2.1 (by linarith)⟩
              · right
                have h1 : a ≤ lower.2 := by rcases i2 with h | h <;> linarith [h.1, h.2]
                have h2 : p.2 ≤ b := by rcases c3 with h | h <;> linarith [h.1, h.2]
                refine ⟨?_, hgt, h1⟩
                refine lt_of_le_of_ne h2 fun he => ?_
                have := c2.2 (by rw [he])
                linarith
            have ha : (lower.2 ≤ a ∧ a < p.2) ∨ (p.2 < a ∧ a ≤ lower.2) := by
              rcases hl with ⟨h1, h2, h3⟩ | ⟨h1, h2, h3⟩
              · exact Or.inl ⟨h1, by linarith⟩
              · exact Or.inr ⟨by linarith, h3⟩
            have hb : (lower.2 ≤ b ∧ b < p.2) ∨ (p.2 < b ∧ b ≤ lower.2) := by
              rcases hl with ⟨h1, h2, h3⟩ | ⟨h1, h2, h3⟩
              · exact Or.inl ⟨by linarith, h3⟩
              · exact Or.inr ⟨h1, by linarith⟩
            obtain ⟨w1, -, -⟩ := onWave_line g1 g2 ha
            obtain ⟨w2, -, -⟩ := onWave_line g1 g2 hb
            refine ⟨?_, w1, w2⟩
            have hd : 0 < p.1 - lower.1 := by linarith
            have : (a - lower.2) / (p.2 - lower.2) < (b - lower.2) / (p.2 - lower.2) := by
              rcases hl with ⟨h1, h2, h3⟩ | ⟨h1, h2, h3⟩
              · exact div_lt_div_of_pos_right (by linarith) (by linarith)
              · rw [div_lt_div_right_of_neg (by linarith)]; linarith
            unfold crossTime
            nlinarith
          · simp only [c3, Bool.false_eq_true, if_false]
            exfalso
            simp only [inOrder, decide_eq_true_eq, not_or, not_and, not_le] at c1 c2 c3
            rcases lt_or_gt_of_ne hab with hlt | hgt
            · rcases le_or_gt p.2 a with h | h
              · exact absurd (c1.1 h) (by linarith)
              · have := c2.1 h.le
                have := c3.1 hlt.le
                linarith
            · rcases le_or_gt a p.2 with h | h
              · have := c1.2 hgt.le; linarith
              · rcases le_or_gt b p.2 with h5 | h5
                · have := c2.2 h5; linarith
                · have := c3.2 h5.le; linarith
    | inRange =>
      obtain ⟨g1, g2⟩ := hlast (i3 (Or.inr rfl)) (by simp)
      obtain ⟨t1, t2, t3⟩ := i2
      simp only [slewStep]
      simp only at t1 t2 t3
      by_cases c1 : inOrder p.2 a b = true
      · simp only [c1, if_true]
        exact ⟨Or.inr (Or.inr (by simp)), trivial, by simp, keep i4⟩
      · simp only [c1, Bool.false_eq_true, if_false]
        by_cases c2 : inOrder a p.2 b = true
        · simp only [c2, if_true]
          exact ⟨Or.inr (Or.inr (by simp)), ⟨onWave_snoc t1 p, by linarith, trivial⟩, by simp, keep i4⟩
        · simp only [c2, Bool.false_eq_true, if_false]
          by_cases c3 : inOrder a b p.2 = true
          · simp only [c3, if_true]
            have hb : (lower.2 ≤ b ∧ b < p.2) ∨ (p.2 < b ∧ b ≤ lower.2) := by
              simp only [inOrder, decide_eq_true_eq, not_or, not_and, not_le] at t3 c1 c2 c3
              rcases lt_or_gt_of_ne hab with hlt | hgt
              · left
                have h1 : lower.2 ≤ b := by rcases t3 with h | h <;> linarith [h.1, h.2]
                have h2 : b ≤ p.2 := by rcases c3 with h | h <;> linarith [h.1, h.2]
                exact ⟨h1, c2.1 (by linarith)⟩
              · right
                have h1 : b ≤ lower.2 := by rcases t3 with h | h <;> linarith [h.1, h.2]
                have h2 : p.2 ≤ b := by rcases c3 with h | h <;> linarith [h.1, h.2]
                refine ⟨lt_of_le_of_ne h2 fun he => ?_, h1⟩
                have := c2.2 (by rw [he])
                linarith
            obtain ⟨w1, w2, -⟩ := onWave_line g1 g2 hb
            have hf : SlewFound a b (l ++ [p]) try_ (crossTime b lower p) := ⟨by linarith, onWave_snoc t1 p, w1⟩
            cases last
            · exact ⟨Or.inl rfl, trivial, (by rintro (h | h) <;> cases h), Or.inr hf⟩
            · exact ⟨Or.inr (Or.inr (by simp)), trivial, (by rintro (h | h) <;> cases h), Or.inr hf⟩
          · simp only [c3, Bool.false_eq_true, if_false]
            exfalso
            simp only [inOrder, decide_eq_true_eq, not_or, not_and, not_le] at c1 c2 c3
            rcases lt_or_gt_of_ne hab with hlt | hgt
            · rcases le_or_gt p.2 a with h | h
              · exact absurd (c1.1 h) (by linarith)
              · have := c2.1 h.le
                have := c3.1 hlt.le
                linarith
            · rcases le_or_gt a p.2 with h | h
              · have := c1.2 hgt.le; linarith
              · rcases le_or_gt b p.2 with h5 | h5
                · have := c2.2 h5; linarith
                · have := c3.2 h5.le; linarith
    | done =>
      simp only [slewStep]
      exact ⟨Or.inl trivial, trivial, (by rintro (h | h) <;> cases h), keep i4⟩

/-- **C37, slew rate**: when times are found (`stop` is not `BIGBIG`), the waveform takes the two values at them, in that order; so
the assertion `stop_time > start_time` holds.  (For `a = b` it does not.) -/
theorem slew_correct (big a b : F) (hab : a ≠ b) (last : Bool) (w : List (Pt F)) (h : InOrder w) (after before : F)
    (hf : (slew big a b last w after before).2 ≠ big) :
    SlewFound a b (window w after before) (slew big a b last w after before).1 (slew big a b last w after before).2 := by
  have := (slew_loop a b big hab last (0, 0) (window w after before) (window_inOrder w h after before)).2.2.2
  rcases this with h1 | h1
  · exact absurd h1.2 hf
  · exact h1

/-! ### areas -/

/-- sum over consecutive pairs -/
def pairSum (f : Pt F → Pt F → F) : List (Pt F) → F
  | p :: q :: r => f p q + pairSum f (q :: r)
  | _ => 0

theorem areaLoop_eq (p : Pt F) (a : F) (r : List (Pt F)) :
    areaLoop p a r = (a + pairSum (fun p q => 1 / 2 * (p.2 + q.2) * (q.1 - p.1)) (p :: r), (p :: r).getLast (by simp)) := by
  induction r generalizing p a with
  | nil => simp [areaLoop, pairSum]
  | cons q r ih =>
    rw [areaLoop, ih]
    simp only [pairSum, List.getLast_cons_cons, Prod.mk.injEq, and_true]
    ring

theorem squareLoop_eq (p : Pt F) (a : F) (r : List (Pt F)) :
    squareLoop p a r = (a + pairSum (fun p q => 1 / 2 * (p.2 * p.2 + q.2 * q.2) * (q.1 - p.1)) (p :: r), (p :: r).getLast (by simp)) := by
  induction r generalizing p a with
  | nil => simp [squareLoop, pairSum]
  | cons q r ih =>
    rw [squareLoop, ih]
    simp only [pairSum, List.getLast_cons_cons, Prod.mk.injEq, and_true]
    ring

end field

/-- (specification) `g` is the waveform: on every interval between neighbouring points the straight line -/
def Follows (g : ℝ → ℝ) (l : List (Pt ℝ)) : Prop :=
  ∀ l1 p q l2, l = l1 ++ p :: q :: l2 → ∀ t, p.1 ≤ t → t ≤ q.1 → g t = p.2 + (t - p.1) * ((q.2 - p.2) / (q.1 - p.1))

theorem Follows.tail {g : ℝ → ℝ} {p : Pt ℝ} {l : List (Pt ℝ)} (h : Follows g (p :: l)) : Follows g l :=
  fun l1 a b l2 e => h (p :: l1) a b l2 (by rw [e]; rfl)

theorem segment_integral (g : ℝ → ℝ) (p q : Pt ℝ) (hlt : p.1 < q.1)
    (hg : ∀ t, p.1 ≤ t → t ≤ q.1 → g t = p.2 + (t - p.1) * ((q.2 - p.2) / (q.1 - p.1))) :
    IntervalIntegrable g MeasureTheory.volume p.1 q.1 ∧ ∫ t in p.1..q.1, g t = 1 / 2 * (p.2 + q.2) * (q.1 - p.1) := by
  set m := (q.2 - p.2) / (q.1 - p.1) with hm
  have hmul : m * (q.1 - p.1) = q.2 - p.2 := by rw [hm]; field_simp [sub_ne_zero.mpr hlt.ne']
  have heq : Set.EqOn (fun t => p.2 + (t - p.1) * m) g (Set.uIcc p.1 q.1) := by
    intro t ht
    rw [Set.uIcc_of_le hlt.le] at ht
    exact (hg t ht.1 ht.2).symm
  have hc : IntervalIntegrable (fun t => p.2 + (t - p.1) * m) MeasureTheory.volume p.1 q.1 := by
    apply Continuous.intervalIntegrable; fun_prop
  refine ⟨IntervalIntegrable.congr (heq.mono Set.uIoc_subset_uIcc) hc, ?_⟩
  rw [← intervalIntegral.integral_congr heq]
  have : ∀ t, p.2 + (t - p.1) * m = (p.2 - p.1 * m) + m * t := fun t => by ring
  simp_rw [this]
  rw [intervalIntegral.integral_add (by simp) (by apply Continuous.intervalIntegrable; fun_prop)]
  rw [intervalIntegral.integral_const, intervalIntegral.integral_const_mul, integral_id]
  simp only [smul_eq_mul]
  linear_combination (q.1 - p.1) / 2 * hmul

theorem segment_square (g : ℝ → ℝ) (p q : Pt ℝ) (hlt : p.1 < q.1)
    (hg : ∀ t, p.1 ≤ t → t ≤ q.1 → g t = p.2 + (t - p.1) * ((q.2 - p.2) / (q.1 - p.1))) :
    IntervalIntegrable (fun t => g t ^ 2) MeasureTheory.volume p.1 q.1 ∧
    ∫ t in p.1..q.1, g t ^ 2 = 1 / 2 * (p.2 * p.2 + q.2 * q.2) * (q.1 - p.1) - (q.1 - p.1) * (q.2 - p.2) ^ 2 / 6 := by
  set m := (q.2 - p.2) / (q.1 - p.1) with hm
  have hmul : m * (q.1 - p.1) = q.2 - p.2 := by rw [hm]; field_simp [sub_ne_zero.mpr hlt.ne']
  have heq : Set.EqOn (fun t => (p.2 + (t - p.1) * m) ^ 2) (fun t => g t ^ 2) (Set.uIcc p.1 q.1) := by
    intro t ht
    rw [Set.uIcc_of_le hlt.le] at ht
    simp only [hg t ht.1 ht.2]
  have hc : IntervalIntegrable (fun t => (p.2 + (t - p.1) * m) ^ 2) MeasureTheory.volume p.1 q.1 := by
    apply Continuous.intervalIntegrable; fun_prop
  refine ⟨IntervalIntegrable.congr (heq.mono Set.uIoc_subset_uIcc) hc, ?_⟩
  rw [← intervalIntegral.integral_congr heq]
  have : ∀ t, (p.2 + (t - p.1) * m) ^ 2 = (p.2 - p.1 * m) ^ 2 + 2 * (p.2 - p.1 * m) * m * t + m ^ 2 * t ^ 2 := fun t => by ring
  simp_rw [this]
  rw [intervalIntegral.integral_add (by apply Continuous.intervalIntegrable; fun_prop) (by apply Continuous.intervalIntegrable; fun_prop)]
  rw [intervalIntegral.integral_add (by simp) (by apply Continuous.intervalIntegrable; fun_prop)]
  rw [intervalIntegral.integral_const, intervalIntegral.integral_const_mul, intervalIntegral.integral_const_mul, integral_id, integral_pow]
  simp only [smul_eq_mul]
  have hq : q.2 = p.2 + m * (q.1 - p.1) := by linarith
  rw [hq]
  push_cast
  ring

/-- sums over the segments are integrals -/
theorem integral_pairSum (G : ℝ → ℝ) (f : Pt ℝ → Pt ℝ → ℝ) (p : Pt ℝ) (r : List (Pt ℝ)) (ho : InOrder (p :: r))
    (hseg : ∀ l1 a b l2, p :: r = l1 ++ a :: b :: l2 → a.1 < b.1 →
      IntervalIntegrable G MeasureTheory.volume a.1 b.1 ∧ ∫ t in a.1..b.1, G t = f a b) :
    IntervalIntegrable G MeasureTheory.volume p.1 ((p :: r).getLast (by simp)).1 ∧
    ∫ t in p.1..((p :: r).getLast (by simp)).1, G t = pairSum f (p :: r) := by
  induction r generalizing p with
  | nil => simp [pairSum]
  | cons q r ih =>
    obtain ⟨h1, h2⟩ := List.pairwise_cons.mp ho
    obtain ⟨a1, a2⟩ := hseg [] p q r rfl (h1 q (by simp))
    obtain ⟨b1, b2⟩ := ih q h2 (fun l1 a b l2 e hl => hseg (p :: l1) a b l2 (by rw [e]; rfl) hl)
    rw [List.getLast_cons_cons]
    refine ⟨a1.trans b1, ?_⟩
    rw [← intervalIntegral.integral_add_adjacent_intervals a1 b1, a2, b2]
    rfl

/-- **C37, integral**: the exact integral of the waveform from the first to the last recorded point in the window. -/
theorem integral_correct (w : List (Pt ℝ)) (hw : InOrder w) (after before : ℝ) (p : Pt ℝ) (r : List (Pt ℝ))
    (hp : window w after before = p :: r) (g : ℝ → ℝ) (hg : Follows g (p :: r)) :
    integral w after before = .num (∫ t in p.1..((p :: r).getLast (by simp)).1, g t) := by
  have ho : InOrder (p :: r) := hp ▸ window_inOrder w hw after before
  have h := integral_pairSum g (fun p q => 1 / 2 * (p.2 + q.2) * (q.1 - p.1)) p r ho
    (fun l1 a b l2 e hl => segment_integral g a b hl (hg l1 a b l2 e))
  unfold integral
  rw [hp]
  simp only [areaLoop_eq, zero_add]
  rw [h.2]

/-- **C37, average**: the integral over the time between the first and the last recorded point (at least two points). -/
theorem average_correct (w : List (Pt ℝ)) (hw : InOrder w) (after before : ℝ) (p q : Pt ℝ) (r : List (Pt ℝ))
    (hp : window w after before = p :: q :: r) (g : ℝ → ℝ) (hg : Follows g (p :: q :: r)) :
    average w after before =
      .num ((∫ t in p.1..((q :: r).getLast (by simp)).1, g t) / (((q :: r).getLast (by simp)).1 - p.1)) := by
  have ho : InOrder (p :: q :: r) := hp ▸ window_inOrder w hw after before
  have h := integral_pairSum g (fun p q => 1 / 2 * (p.2 + q.2) * (q.1 - p.1)) p (q :: r) ho
    (fun l1 a b l2 e hl => segment_integral g a b hl (hg l1 a b l2 e))
  have hlt : p.1 < ((q :: r).getLast (by simp)).1 := (List.pairwise_cons.mp ho).1 _ (List.getLast_mem _)
  unfold average
  rw [hp]
  simp only [areaLoop_eq, zero_add]
  rw [List.getLast_cons_cons] at h ⊢
  rw [if_neg (by linarith), h.2]

/-- **C37, rms is not the rms of the waveform**: its square is the mean square plus a positive excess, as the squares are
interpolated instead of the waveform. -/
theorem rms_excess (w : List (Pt ℝ)) (hw : InOrder w) (after before : ℝ) (p q : Pt ℝ) (r : List (Pt ℝ))
    (hp : window w after before = p :: q :: r) (g : ℝ → ℝ) (hg : Follows g (p :: q :: r)) :
    rmsSquare w after before =
      .num (((∫ t in p.1..((q :: r).getLast (by simp)).1, g t ^ 2) +
        pairSum (fun a b => (b.1 - a.1) * (b.2 - a.2) ^ 2 / 6) (p :: q :: r)) / (((q :: r).getLast (by simp)).1 - p.1)) := by
  have ho : InOrder (p :: q :: r) := hp ▸ window_inOrder w hw after before
  have h := integral_pairSum (fun t => g t ^ 2)
    (fun p q => 1 / 2 * (p.2 * p.2 + q.2 * q.2) * (q.1 - p.1) - (q.1 - p.1) * (q.2 - p.2) ^ 2 / 6) p (q :: r) ho
    (fun l1 a b l2 e hl => segment_square g a b hl (hg l1 a b l2 e))
  have hlt : p.1 < ((q :: r).getLast (by simp)).1 := (List.pairwise_cons.mp ho).1 _ (List.getLast_mem _)
  unfold rmsSquare
  rw [hp]
  simp only [squareLoop_eq, zero_add]
  rw [List.getLast_cons_cons] at h ⊢
  rw [if_neg (by linarith), h.2]
  congr 2
  have : ∀ l : List (Pt ℝ), pairSum (fun p q => 1 / 2 * (p.2 * p.2 + q.2 * q.2) * (q.1 - p.1)) l =
      pairSum (fun p q => 1 / 2 * (p.2 * p.2 + q.2 * q.2) * (q.1 - p.1) - (q.1 - p.1) * (q.2 - p.2) ^ 2 / 6) l +
      pairSum (fun a b => (b.1 - a.1) * (b.2 - a.2) ^ 2 / 6) l := by
    intro l
    induction l with
    | nil => simp [pairSum]
    | cons a l ih =>
      cases l with
      | nil => simp [pairSum]
      | cons b l =>
        simp only [pairSum] at ih ⊢
        linarith
  exact this _

/-! ### examples and defects -/

/-- a triangle and a flat end -/
def demo : List (Pt ℚ) := [(0, 0), (1, 2), (2, -1), (4, 3), (5, 3)]

example : InOrder demo := by unfold InOrder demo; decide +kernel
example : window demo 1 4 = [(1, 2), (2, -1), (4, 3)] := by decide +kernel
example : max 1000 false demo 0 5 = (4, 3) ∧ max 1000 true demo 0 5 = (5, 3) ∧ min 1000 false demo 0 5 = (2, -1) := by decide +kernel
example : cross 1000 1 1 false demo 0 5 = 1 / 2 ∧ cross 1000 1 1 true demo 0 5 = 3 ∧ cross 1000 (-1) 1 false demo 0 5 = 4 / 3 := by
  decide +kernel
example : integral demo 0 5 = .num (13 / 2) ∧ average demo 0 5 = .num (13 / 10) := by decide +kernel
example : slew 1000 0 2 false demo (3 / 2) 5 = (5 / 2, 7 / 2) := by decide +kernel
example : Follows (fun t => 2 * t) [(0, 0), (1, 2)] := by
  intro l1 p q l2 e t _ _
  rcases l1 with _ | ⟨a, l1⟩
  · simp only [List.nil_append, List.cons.injEq] at e
    obtain ⟨rfl, rfl, -⟩ := e
    norm_num; ring
  · have := congrArg List.length e
    simp at this
    omega

/-- **C37 is false for windows with fewer than two points**: the average is not a number or is read from beyond the end -/
theorem average_small_window :
    average demo (1 / 2) (3 / 2) = .nan ∧ average demo (5 / 4) (3 / 2) = .nan ∧ average demo 6 7 = .ub ∧ integral demo 6 7 = .ub := by
  decide +kernel

/-- **C37 is false for rms**: of the line from 0 to 1 it is √(1/2), not √(1/3) -/
theorem rms_wrong : rmsSquare [((0 : ℚ), (0 : ℚ)), (1, 1)] 0 1 = .num (1 / 2) := by decide +kernel

/-- **C37 is false for the slew rate**: a final value that is reached but not passed is not found … -/
theorem slew_flat_top_missed : slew 1000 0 3 false ([(0, -1), (1, 1), (2, 3), (3, 3)] : List (Pt ℚ)) 0 3 = (1000, 1000) := by decide +kernel

/-- … and `last` finds the first one if that is passed in a single step -/
theorem slew_last_wrong : slew 1000 0 2 true ([(0, -1), (1, 3), (2, -1), (3, 1), (4, 3)] : List (Pt ℚ)) 0 4 = (1 / 4, 3 / 4) := by decide +kernel

end Gnucap.Measure
