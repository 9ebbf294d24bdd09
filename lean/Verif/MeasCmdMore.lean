import Verif.MeasCmdProps
import Verif.InterpProps

/-!
# The command `measure`: areas and values at a time

What `integral`, `average`, `rms` and `at` give, from the line and the session (`Session.line`).  The waves have rational numbers, the
integrals are real.
-/
namespace Gnucap.MeasCmd
open Gnucap.Measure (window areaLoop squareLoop pairSum Follows InOrder rmsSquare beyond areaLoop_eq squareLoop_eq)

/-- the point with real numbers -/
def up (p : ℚ × ℚ) : ℝ × ℝ := ((p.1 : ℝ), (p.2 : ℝ))

theorem takeWhile_up (b : ℚ) : ∀ w : Wave, (w.map up).takeWhile (fun p => decide (p.1 ≤ (b : ℝ))) = (w.takeWhile fun p => decide (p.1 ≤ b)).map up
  | [] => rfl
  | p :: w => by
    simp only [List.map_cons, List.takeWhile_cons, up, Rat.cast_le, decide_eq_true_eq]
    split
    · rw [List.map_cons, ← takeWhile_up b w]; rfl
    · rfl

theorem dropWhile_up (a : ℚ) : ∀ w : Wave, (w.map up).dropWhile (fun p => decide (p.1 < (a : ℝ))) = (w.dropWhile fun p => decide (p.1 < a)).map up
  | [] => rfl
  | p :: w => by
    simp only [List.map_cons, List.dropWhile_cons, up, Rat.cast_lt, decide_eq_true_eq]
    split
    · exact dropWhile_up a w
    · rfl

theorem window_up (w : Wave) (a b : ℚ) : window (w.map up) (a : ℝ) (b : ℝ) = (window w a b).map up := by
  unfold window
  rw [takeWhile_up, dropWhile_up]

theorem inOrder_up {w : Wave} (h : InOrder w) : InOrder (w.map up) := by
  unfold InOrder at h ⊢
  rw [List.pairwise_map]
  exact h.imp fun h => by simpa [up] using h

theorem pairSum_up (f : ℚ × ℚ → ℚ × ℚ → ℚ) (g : ℝ × ℝ → ℝ × ℝ → ℝ) (hfg : ∀ p q, g (up p) (up q) = (f p q : ℝ)) : ∀ w : Wave,
    pairSum g (w.map up) = ((pairSum f w : ℚ) : ℝ)
  | [] => by simp [pairSum]
  | [p] => by simp [pairSum]
  | p :: q :: r => by
    have := pairSum_up f g hfg (q :: r)
    simp only [List.map_cons] at this ⊢
    simp only [pairSum, hfg, this, Rat.cast_add]

theorem last_up (p : ℚ × ℚ) (r : Wave) : (((p :: r).map up).getLast (by simp)) = up ((p :: r).getLast (by simp)) := by
  rw [List.getLast_map]

/-- the last time of the part -/
def lastTime (p : ℚ × ℚ) (r : Wave) : ℚ := ((p :: r).getLast (by simp)).1

/-- **integral**: the integral of the wave over the part asked for -/
theorem measure_integral {e : Env} {s : St} {rows : List (ℚ × (Probe → ℚ))} {p : Probe} {c : Call} (hs : Session e s rows p (c.inner.names e Fn.integral.names))
    (hc : c.Good e.ci .integral) (ho : InOrder (recorded p rows)) (a : ℚ × ℚ) (r : Wave) (hp : part e Fn.integral.names c.inner (recorded p rows) = a :: r)
    (g : ℝ → ℝ) (hg : Follows g ((a :: r).map up)) (z : List Char) :
    ∃ x : ℚ, (x : ℝ) = ∫ t in (a.1 : ℝ)..(lastTime a r : ℝ), g t ∧ command e s (c.text z) = .value c.name (.num x) (')' :: z) := by
  unfold part at hp
  have h1 := Measure.integral_correct ((recorded p rows).map up) (inOrder_up ho) (asked e Fn.integral.names .after (-e.big) c.inner.items)
    (asked e Fn.integral.names .before e.big c.inner.items) (up a) (r.map up) (by rw [window_up, hp]; rfl) g hg
  unfold Measure.integral at h1
  rw [window_up, hp] at h1
  simp only [List.map_cons, areaLoop_eq, zero_add, Measure.Res.num.injEq] at h1
  have h2 := pairSum_up (fun p q => 1 / 2 * (p.2 + q.2) * (q.1 - p.1)) (fun p q => 1 / 2 * (p.2 + q.2) * (q.1 - p.1)) (by intro p q; simp [up]) (a :: r)
  rw [List.map_cons] at h2
  refine ⟨pairSum (fun p q => 1 / 2 * (p.2 + q.2) * (q.1 - p.1)) (a :: r), ?_, ?_⟩
  · rw [← h2, h1]
    have := last_up a r
    simp only [List.map_cons] at this
    rw [this]
    rfl
  · rw [hs.line hc z]
    simp only [Fn.value]
    rw [val_asked e _ _ .before e.big rfl, val_asked e _ _ .after (-e.big) rfl]
    unfold Measure.integral
    rw [hp]
    simp only [areaLoop_eq, zero_add, ofRes]

/-- **average**: that integral over the time -/
theorem measure_average {e : Env} {s : St} {rows : List (ℚ × (Probe → ℚ))} {p : Probe} {c : Call} (hs : Session e s rows p (c.inner.names e Fn.average.names))
    (hc : c.Good e.ci .average) (ho : InOrder (recorded p rows)) (a b : ℚ × ℚ) (r : Wave) (hp : part e Fn.average.names c.inner (recorded p rows) = a :: b :: r)
    (g : ℝ → ℝ) (hg : Follows g ((a :: b :: r).map up)) (z : List Char) :
    ∃ x : ℚ, (x : ℝ) = (∫ t in (a.1 : ℝ)..(lastTime b r : ℝ), g t) / (lastTime b r - a.1 : ℝ) ∧ command e s (c.text z) = .value c.name (.num x) (')' :: z) := by
  unfold part at hp
  have h1 := Measure.average_correct ((recorded p rows).map up) (inOrder_up ho) (asked e Fn.average.names .after (-e.big) c.inner.items)
    (asked e Fn.average.names .before e.big c.inner.items) (up a) (up b) (r.map up) (by rw [window_up, hp]; rfl) g hg
  have hab : a.1 < lastTime b r := by
    have := Measure.window_inOrder (recorded p rows) ho (asked e Fn.average.names .after (-e.big) c.inner.items) (asked e Fn.average.names .before e.big c.inner.items)
    rw [hp] at this
    exact (List.pairwise_cons.mp this).1 _ (List.getLast_mem _)
  have hl := last_up b r
  simp only [List.map_cons] at hl
  unfold Measure.average at h1
  rw [window_up, hp] at h1
  simp only [List.map_cons, areaLoop_eq, zero_add, List.getLast_cons_cons, hl] at h1
  have hne : ¬ (up ((b :: r).getLast (by simp))).1 - (up a).1 = 0 := by
    have : ((a.1 : ℚ) : ℝ) < (lastTime b r : ℝ) := Rat.cast_lt.mpr hab
    simp only [up]
    unfold lastTime at this
    linarith
  rw [if_neg hne, Measure.Res.num.injEq] at h1
  have h2 := pairSum_up (fun p q => 1 / 2 * (p.2 + q.2) * (q.1 - p.1)) (fun p q => 1 / 2 * (p.2 + q.2) * (q.1 - p.1)) (by intro p q; simp [up]) (a :: b :: r)
  simp only [List.map_cons] at h2
  refine ⟨pairSum (fun p q => 1 / 2 * (p.2 + q.2) * (q.1 - p.1)) (a :: b :: r) / (lastTime b r - a.1), ?_, ?_⟩
  · rw [Rat.cast_div, ← h2, Rat.cast_sub]
    exact h1
  · rw [hs.line hc z]
    simp only [Fn.value]
    rw [val_asked e _ _ .before e.big rfl, val_asked e _ _ .after (-e.big) rfl]
    unfold Measure.average
    rw [hp]
    simp only [areaLoop_eq, zero_add, List.getLast_cons_cons]
    rw [if_neg (by unfold lastTime at hab; intro h; linarith)]
    rfl

/-- **rms is more than the rms of the wave**: the root of the mean square and an excess (C37) -/
theorem measure_rms_excess {e : Env} {s : St} {rows : List (ℚ × (Probe → ℚ))} {p : Probe} {c : Call} (hs : Session e s rows p (c.inner.names e Fn.rms.names))
    (hc : c.Good e.ci .rms) (ho : InOrder (recorded p rows)) (a b : ℚ × ℚ) (r : Wave) (hp : part e Fn.rms.names c.inner (recorded p rows) = a :: b :: r)
    (g : ℝ → ℝ) (hg : Follows g ((a :: b :: r).map up)) (z : List Char) :
    ∃ x : ℚ, (x : ℝ) = ((∫ t in (a.1 : ℝ)..(lastTime b r : ℝ), g t ^ 2) + pairSum (fun a b => (b.1 - a.1) * (b.2 - a.2) ^ 2 / 6) ((a :: b :: r).map up)) /
      (lastTime b r - a.1 : ℝ) ∧ command e s (c.text z) = .value c.name (.root x) (')' :: z) := by
  unfold part at hp
  have h1 := Measure.rms_excess ((recorded p rows).map up) (inOrder_up ho) (asked e Fn.rms.names .after (-e.big) c.inner.items)
    (asked e Fn.rms.names .before e.big c.inner.items) (up a) (up b) (r.map up) (by rw [window_up, hp]; rfl) g hg
  have hab : a.1 < lastTime b r := by
    have := Measure.window_inOrder (recorded p rows) ho (asked e Fn.rms.names .after (-e.big) c.inner.items) (asked e Fn.rms.names .before e.big c.inner.items)
    rw [hp] at this
    exact (List.pairwise_cons.mp this).1 _ (List.getLast_mem _)
  have hl := last_up b r
  simp only [List.map_cons] at hl
  unfold rmsSquare at h1
  rw [window_up, hp] at h1
  simp only [List.map_cons, squareLoop_eq, zero_add, List.getLast_cons_cons, hl] at h1
  have hne : ¬ (up ((b :: r).getLast (by simp))).1 - (up a).1 = 0 := by
    have : ((a.1 : ℚ) : ℝ) < (lastTime b r : ℝ) := Rat.cast_lt.mpr hab
    simp only [up]
    unfold lastTime at this
    linarith
  rw [if_neg hne, Measure.Res.num.injEq] at h1
  have h2 := pairSum_up (fun p q => 1 / 2 * (p.2 * p.2 + q.2 * q.2) * (q.1 - p.1)) (fun p q => 1 / 2 * (p.2 * p.2 + q.2 * q.2) * (q.1 - p.1)) (by intro p q; simp [up]) (a :: b :: r)
  simp only [List.map_cons] at h2
  refine ⟨pairSum (fun p q => 1 / 2 * (p.2 * p.2 + q.2 * q.2) * (q.1 - p.1)) (a :: b :: r) / (lastTime b r - a.1), ?_, ?_⟩
  · rw [Rat.cast_div, ← h2, Rat.cast_sub]
    exact h1
  · rw [hs.line hc z]
    simp only [Fn.value]
    rw [val_asked e _ _ .before e.big rfl, val_asked e _ _ .after (-e.big) rfl]
    unfold rmsSquare
    rw [hp]
    simp only [squareLoop_eq, zero_add, List.getLast_cons_cons]
    rw [if_neg (by unfold lastTime at hab; intro h; linarith)]
    rfl

/-- the time asked for -/
def at' (e : Env) (c : Call) : ℚ := asked e Fn.at.names .x e.big c.inner.items

theorem at_eval {e : Env} {s : St} {rows : List (ℚ × (Probe → ℚ))} {p : Probe} {c : Call} (hs : Session e s rows p (c.inner.names e Fn.at.names))
    (hc : c.Good e.ci .at) (q : Integ.FPoly ℚ) (hq : Interp.interpolate (recorded p rows) (at' e c) (some 0) (some 0) = .ok q) (z : List Char) :
    command e s (c.text z) = .value c.name (.num (if (c.inner.args e Fn.at.names).flag .deriv then q.f1 else q.f0)) (')' :: z) := by
  rw [hs.line hc z]
  simp only [Fn.value]
  rw [val_asked e _ _ .x e.big rfl]
  simp only [Interp.Wave.vOut]
  unfold at' at hq
  rw [hq]

/-- **at, between two points**: the value of the line through them, or with `derivative` its slope -/
theorem measure_at_between {e : Env} {s : St} {rows : List (ℚ × (Probe → ℚ))} {p : Probe} {c : Call} (hs : Session e s rows p (c.inner.names e Fn.at.names))
    (hc : c.Good e.ci .at) (ho : InOrder (recorded p rows)) (l r : Wave) (a b : ℚ × ℚ) (hw : recorded p rows = l ++ a :: b :: r) (ha : a.1 ≤ at' e c) (hb : at' e c < b.1) (z : List Char) :
    command e s (c.text z) = .value c.name (.num (if (c.inner.args e Fn.at.names).flag .deriv then (b.2 - a.2) / (b.1 - a.1)
      else a.2 + (at' e c - a.1) * ((b.2 - a.2) / (b.1 - a.1)))) (')' :: z) := by
  refine at_eval hs hc (Interp.line a b (at' e c)) ?_ z
  rw [hw]
  refine Interp.interpolate_between l r a b _ _ _ ?_ ha hb
  rw [← hw]
  exact ho.imp fun h => h.le

/-- **at, on a point**: what was recorded -/
theorem measure_at_point {e : Env} {s : St} {rows : List (ℚ × (Probe → ℚ))} {p : Probe} {c : Call} (hs : Session e s rows p (c.inner.names e Fn.at.names))
    (hc : c.Good e.ci .at) (ho : InOrder (recorded p rows)) (x : ℚ × ℚ) (hx : x ∈ recorded p rows) (ha : at' e c = x.1)
    (hd : (c.inner.args e Fn.at.names).flag .deriv = false) (z : List Char) :
    command e s (c.text z) = .value c.name (.num x.2) (')' :: z) := by
  obtain ⟨sl, h⟩ := Interp.interpolate_at_point (recorded p rows) ho x hx (some 0) (some 0)
  rw [at_eval hs hc _ (ha ▸ h) z, hd]
  rfl

/-- **at, behind the last point**, as when no time is given: the last value, slope 0 -/
theorem measure_at_above {e : Env} {s : St} {rows : List (ℚ × (Probe → ℚ))} {p : Probe} {c : Call} (hs : Session e s rows p (c.inner.names e Fn.at.names))
    (hc : c.Good e.ci .at) (ho : InOrder (recorded p rows)) (l : Wave) (a b : ℚ × ℚ) (hw : recorded p rows = l ++ [a, b]) (hb : b.1 < at' e c) (z : List Char) :
    command e s (c.text z) = .value c.name (.num (if (c.inner.args e Fn.at.names).flag .deriv then 0 else b.2)) (')' :: z) := by
  have := Interp.interpolate_above l a b (at' e c) (some 0) (some 0) (by rw [← hw]; exact ho.imp fun h => h.le) hb
  rw [← hw] at this
  rw [at_eval hs hc _ this z]
  simp

/-- **at, before the first point**: the first value, slope 0 -/
theorem measure_at_below {e : Env} {s : St} {rows : List (ℚ × (Probe → ℚ))} {p : Probe} {c : Call} (hs : Session e s rows p (c.inner.names e Fn.at.names))
    (hc : c.Good e.ci .at) (ho : InOrder (recorded p rows)) (r : Wave) (a b : ℚ × ℚ) (hw : recorded p rows = a :: b :: r) (ha : at' e c < a.1) (z : List Char) :
    command e s (c.text z) = .value c.name (.num (if (c.inner.args e Fn.at.names).flag .deriv then 0 else a.2)) (')' :: z) := by
  have := Interp.interpolate_below r a b (at' e c) (some 0) (some 0) (by rw [← hw]; exact ho.imp fun h => h.le) ha
  rw [← hw] at this
  rw [at_eval hs hc _ this z]
  simp

/-! ## Examples -/
namespace Demo

theorem inOrder : InOrder (recorded v1 rows) := by unfold InOrder; decide +kernel

theorem good_plain (f : Fn) (fn : List Char) (hfn : Spice.Plain fn) (hc : Called true f fn) : (call [] fn).Good true f where
  name := by show Spice.Plain ['t', 'o', 'p']; exact ⟨by decide, by decide, by decide, by decide, by decide⟩
  fn := hfn
  called := hc
  blank := by show ∀ x ∈ [' ', ' '], Scan.isSpace x = true; decide
  inner := ⟨trivial, ⟨.inr (.inr ⟨rfl, rfl⟩), by decide⟩, ⟨by decide, by decide⟩, fun h => absurd rfl h⟩

/-- the wave of `v(1)` -/
noncomputable def g (t : ℝ) : ℝ := if t ≤ 1 then 2 * t else 3 - t

theorem follows : Follows g (([(0, 0), (1, 2), (2, 1)] : Wave).map up) := by
  intro l1 p q l2 e t h1 h2
  simp only [List.map_cons, List.map_nil, up, Rat.cast_zero, Rat.cast_one, Rat.cast_ofNat] at e
  rcases l1 with _ | ⟨x, _ | ⟨y, l1⟩⟩
  · simp only [List.nil_append, List.cons.injEq] at e
    obtain ⟨rfl, rfl, -⟩ := e
    simp only at h1 h2
    rw [g, if_pos h2]
    norm_num
    ring
  · simp only [List.cons_append, List.nil_append, List.cons.injEq] at e
    obtain ⟨-, rfl, rfl, -⟩ := e
    simp only at h1 h2
    unfold g
    split
    · have : t = 1 := le_antisymm (by assumption) h1
      rw [this]; norm_num
    · norm_num; ring
  · have := congrArg List.length e
    simp at this
    omega

/-- its integral from 0 to 2 is 1 + 3/2 -/
example : ((5 / 2 : ℚ) : ℝ) = ∫ t in ((0 : ℚ) : ℝ)..(lastTime (0, 0) [(1, 2), (2, 1)] : ℝ), g t ∧
    command env s ((call [] ['a', 'r', 'e', 'a']).text []) = .value ['t', 'o', 'p'] (.num (5 / 2)) [')'] := by
  have h := (session .integral [] ['a', 'r', 'e', 'a']).line (good_plain .integral _ ⟨by decide, by decide, by decide, by decide, by decide⟩ (.inl (by decide))) []
  have hv : Fn.value env ((call [] ['a', 'r', 'e', 'a']).inner.args env Fn.integral.names) (recorded v1 rows) .integral = .num (5 / 2) := by decide +kernel
  rw [hv] at h
  refine ⟨?_, h⟩
  obtain ⟨x, hx, hc⟩ := measure_integral (session .integral [] ['a', 'r', 'e', 'a'])
    (good_plain .integral _ ⟨by decide, by decide, by decide, by decide, by decide⟩ (.inl (by decide))) inOrder (0, 0) [(1, 2), (2, 1)] (by decide +kernel) g follows []
  rw [h] at hc
  simp only [Out.value.injEq, Val.num.injEq] at hc
  rw [hc.2.1]
  exact hx

/-- the average is 5/4 -/
example : ∃ x : ℚ, (x : ℝ) = (∫ t in ((0 : ℚ) : ℝ)..(lastTime (1, 2) [(2, 1)] : ℝ), g t) / (lastTime (1, 2) [(2, 1)] - (0 : ℚ) : ℝ) ∧
    command env s ((call [] ['m', 'e', 'a', 'n']).text []) = .value ['t', 'o', 'p'] (.num x) [')'] :=
  measure_average (session .average [] _) (good_plain .average _ ⟨by decide, by decide, by decide, by decide, by decide⟩ (.inl (by decide))) inOrder (0, 0) (1, 2) [(2, 1)]
    (by decide +kernel) g follows []

/-- no time given: the last value -/
example : command env s ((call [] ['a', 't']).text []) = .value ['t', 'o', 'p'] (.num 1) [')'] :=
  measure_at_above (session .at [] ['a', 't']) (good_plain .at _ ⟨by decide, by decide, by decide, by decide, by decide⟩ (.inl (by decide))) inOrder
    [(0, 0)] (1, 2) (2, 1) (by decide +kernel) (by decide +kernel) []

end Demo

end Gnucap.MeasCmd
