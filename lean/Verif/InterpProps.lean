import Verif.InterpModel
import Mathlib.Algebra.Order.Field.Basic
import Mathlib.Tactic.Linarith
import Mathlib.Tactic.FieldSimp
import Mathlib.Tactic.Ring
import Mathlib.Tactic.LinearCombination
import Mathlib.Topology.Order.Lattice
import Mathlib.Topology.MetricSpace.Pseudo.Defs
import Mathlib.Topology.Instances.Real.Lemmas

/-!
# Interpolation (C30), delay line (C32), PWL source (C29)
-/
set_option linter.unusedSectionVars false
namespace Gnucap.Interp
open Gnucap.Integ (FPoly)

variable {F : Type _} [Field F] [LinearOrder F] [IsStrictOrderedRing F]

theorem upperBound_split {x : F} {L R : List (F × F)} (hL : ∀ p ∈ L, p.1 ≤ x) (hR : ∀ p ∈ R, x < p.1) :
    upperBound x (L ++ R) = L.length ∧ partitioned x (L ++ R) = true := by
  have hl : ∀ p ∈ L, decide (p.1 ≤ x) = true := fun p hp => decide_eq_true (hL p hp)
  have htw : R.takeWhile (fun p => decide (p.1 ≤ x)) = [] := by
    cases R with
    | nil => rfl
    | cons p r => simp [List.takeWhile_cons, not_le.mpr (hR p (by simp))]
  have hdw : R.dropWhile (fun p => decide (p.1 ≤ x)) = R := by
    cases R with
    | nil => rfl
    | cons p r => simp [List.dropWhile_cons, not_le.mpr (hR p (by simp))]
  constructor
  · unfold upperBound
    rw [List.takeWhile_append_of_pos hl, htw, List.append_nil]
  · unfold partitioned
    rw [List.dropWhile_append_of_pos hl, hdw, List.all_eq_true]
    exact fun p hp => decide_eq_true (hR p hp)

/-- what `interpolate` does once the search has found its place -/
def finish (x : F) (below above : Option F) (first last : Bool) (lower upper : F × F) : Out (FPoly F) :=
  match (if last = true ∧ upper.1 < x then above else none) with
  | some f1 => .ok ⟨x, upper.2 + (x - upper.1) * f1, f1⟩
  | none =>
    match (if first = true ∧ x < lower.1 then below else none) with
    | some f1 => .ok ⟨x, lower.2 + (x - lower.1) * f1, f1⟩
    | none =>
      if upper.1 ≤ lower.1 then .throw
      else .ok ⟨x, lower.2 + (x - lower.1) * ((upper.2 - lower.2) / (upper.1 - lower.1)), (upper.2 - lower.2) / (upper.1 - lower.1)⟩

theorem interp_at (l r : List (F × F)) (a b : F × F) (x : F) (below above : Option F)
    (hL : ∀ p ∈ (l ++ [a]).tail, p.1 ≤ x) (hR : ∀ p ∈ (b :: r).dropLast, x < p.1) :
    interpolate (l ++ a :: b :: r) x below above = finish x below above l.isEmpty r.isEmpty a b := by
  obtain ⟨p0, p1, rr, ht, hrange⟩ : ∃ p0 p1 rr, l ++ a :: b :: r = p0 :: p1 :: rr ∧ (p1 :: rr).dropLast = (l ++ [a]).tail ++ (b :: r).dropLast := by
    cases l with
    | nil => exact ⟨a, b, r, rfl, rfl⟩
    | cons p l' =>
      cases l' with
      | nil => exact ⟨p, a, b :: r, rfl, by simp [List.dropLast]⟩
      | cons q l'' =>
        refine ⟨p, q, l'' ++ a :: b :: r, rfl, ?_⟩
        have : q :: (l'' ++ a :: b :: r) = (q :: l'' ++ [a]) ++ (b :: r) := by simp
        rw [this, List.dropLast_append_of_ne_nil (by simp)]
        rfl
  obtain ⟨hk, hp⟩ := upperBound_split hL hR
  have hlen : ((l ++ [a]).tail).length = l.length := by simp
  rw [ht]
  unfold interpolate
  simp only [hrange, hp, Bool.not_true, Bool.false_eq_true, if_false, hk, hlen]
  rw [← ht]
  have g1 : (l ++ a :: b :: r)[l.length + 1]? = some b := by
    rw [List.getElem?_append_right (by omega)]; simp
  have g0 : (l ++ a :: b :: r)[l.length]? = some a := by
    rw [List.getElem?_append_right (by omega)]; simp
  simp only [g1, g0]
  have e1 : (l.length = ((l ++ [a]).tail ++ (b :: r).dropLast).length) ↔ (r.isEmpty = true) := by
    cases r with
    | nil => simp
    | cons q r' => simp
  have e2 : (l.length = 0) ↔ (l.isEmpty = true) := by
    cases l <;> simp
  unfold finish
  simp only [e1, e2]
  by_cases h1 : r.isEmpty = true ∧ b.1 < x
  · by_cases h2 : l.isEmpty = true ∧ x < a.1
    · simp only [if_pos h1, if_pos h2]; cases above <;> cases below <;> rfl
    · simp only [if_pos h1, if_neg h2]; cases above <;> rfl
  · by_cases h2 : l.isEmpty = true ∧ x < a.1
    · simp only [if_neg h1, if_pos h2]; cases below <;> rfl
    · simp only [if_neg h1, if_neg h2]

/-! ## C30 -/

/-- table sorted, equal keys allowed -/
def Up (t : List (F × F)) : Prop := t.Pairwise (fun p q => p.1 ≤ q.1)
/-- table sorted, keys distinct -/
def UpStrict (t : List (F × F)) : Prop := t.Pairwise (fun p q => p.1 < q.1)

theorem UpStrict.up {t : List (F × F)} (h : UpStrict t) : Up t := h.imp (fun h => h.le)

/-- value and slope of the line through two points -/
def line (a b : F × F) (x : F) : FPoly F := ⟨x, a.2 + (x - a.1) * ((b.2 - a.2) / (b.1 - a.1)), (b.2 - a.2) / (b.1 - a.1)⟩

omit [IsStrictOrderedRing F] in
theorem up_split {l r : List (F × F)} {a b : F × F} (h : Up (l ++ a :: b :: r)) :
    (∀ p ∈ l, p.1 ≤ a.1) ∧ (∀ p ∈ r, b.1 ≤ p.1) := by
  unfold Up at h
  rw [List.pairwise_append] at h
  refine ⟨fun p hp => h.2.2 p hp a (by simp), fun p hp => ?_⟩
  have := h.2.1.of_cons
  exact List.rel_of_pairwise_cons this hp

/-- **C30, inside.** Between two neighbouring entries the result is the line through them (equal keys elsewhere do not matter). -/
theorem interpolate_between (l r : List (F × F)) (a b : F × F) (x : F) (below above : Option F) (h : Up (l ++ a :: b :: r))
    (ha : a.1 ≤ x) (hb : x < b.1) : interpolate (l ++ a :: b :: r) x below above = .ok (line a b x) := by
  obtain ⟨h1, h2⟩ := up_split h
  rw [interp_at]
  · unfold finish
    rw [if_neg (fun h => absurd h.2 (not_lt.mpr hb.le))]
    simp only
    rw [if_neg (fun h => absurd h.2 (not_lt.mpr ha))]
    simp only
    rw [if_neg (not_le.mpr (ha.trans_lt hb))]
    rfl
  · intro p hp
    rcases List.mem_append.mp (List.mem_of_mem_tail hp) with q | q
    · exact (h1 p q).trans ha
    · simp only [List.mem_singleton] at q; rw [q]; exact ha
  · intro p hp
    rcases List.mem_cons.mp (List.mem_of_mem_dropLast hp) with q | q
    · rw [q]; exact hb
    · exact hb.trans_le (h2 p q)

/-- **C30, above.** Past the last entry: the asked end slope, or (none asked) the last line continued. -/
theorem interpolate_above (l : List (F × F)) (a b : F × F) (x : F) (below above : Option F) (h : Up (l ++ [a, b])) (hb : b.1 < x) :
    interpolate (l ++ [a, b]) x below above = match above with
      | some s => .ok ⟨x, b.2 + (x - b.1) * s, s⟩
      | none => if b.1 ≤ a.1 then .throw else .ok (line a b x) := by
  obtain ⟨h1, _⟩ := up_split h
  have hab : a.1 ≤ b.1 := by
    unfold Up at h; rw [List.pairwise_append] at h
    exact List.rel_of_pairwise_cons h.2.1 (by simp)
  rw [interp_at]
  · unfold finish
    rw [if_pos ⟨rfl, hb⟩]
    cases above with
    | some s => rfl
    | none =>
      simp only
      rw [if_neg (fun h => absurd h.2 (not_lt.mpr (hab.trans hb.le)))]
      rfl
  · intro p hp
    rcases List.mem_append.mp (List.mem_of_mem_tail hp) with q | q
    · exact (h1 p q).trans (hab.trans hb.le)
    · simp only [List.mem_singleton] at q; rw [q]; exact hab.trans hb.le
  · intro p hp; simp at hp

/-- **C30, at the last entry**, also approached from a table whose last two keys differ. -/
theorem interpolate_last (l : List (F × F)) (a b : F × F) (below above : Option F) (h : Up (l ++ [a, b])) :
    interpolate (l ++ [a, b]) b.1 below above = if b.1 ≤ a.1 then .throw else .ok (line a b b.1) := by
  obtain ⟨h1, _⟩ := up_split h
  have hab : a.1 ≤ b.1 := by
    unfold Up at h; rw [List.pairwise_append] at h
    exact List.rel_of_pairwise_cons h.2.1 (by simp)
  rw [interp_at]
  · unfold finish
    rw [if_neg (fun h => lt_irrefl _ h.2)]
    simp only
    rw [if_neg (fun h => absurd h.2 (not_lt.mpr hab))]
    rfl
  · intro p hp
    rcases List.mem_append.mp (List.mem_of_mem_tail hp) with q | q
    · exact (h1 p q).trans hab
    · simp only [List.mem_singleton] at q; rw [q]; exact hab
  · intro p hp; simp at hp

/-- **C30, below.** Before the first entry: the asked end slope, or the first line continued. -/
theorem interpolate_below (r : List (F × F)) (a b : F × F) (x : F) (below above : Option F) (h : Up (a :: b :: r)) (ha : x < a.1) :
    interpolate (a :: b :: r) x below above = match below with
      | some s => .ok ⟨x, a.2 + (x - a.1) * s, s⟩
      | none => if b.1 ≤ a.1 then .throw else .ok (line a b x) := by
  have hall : ∀ p ∈ b :: r, a.1 ≤ p.1 := fun p hp => List.rel_of_pairwise_cons h hp
  have e := interp_at [] r a b x below above (by simp) (fun p hp => ha.trans_le (hall p (List.mem_of_mem_dropLast hp)))
  rw [List.nil_append] at e
  rw [e]
  unfold finish
  rw [if_neg (fun hh => absurd hh.2 (not_lt.mpr (ha.le.trans (hall b (by simp)))))]
  simp only
  rw [if_pos ⟨rfl, ha⟩]
  cases below with
  | some s => rfl
  | none => rfl

theorem line_left (a b : F × F) : (line a b a.1).f0 = a.2 := by simp [line]

theorem line_right (a b : F × F) (h : a.1 < b.1) : (line a b b.1).f0 = b.2 := by
  unfold line
  have : b.1 - a.1 ≠ 0 := sub_ne_zero.mpr h.ne'
  simp only
  field_simp
  ring

/-- **C30, at the points.** A table with distinct keys: the value at a table point is the table's, whatever the end slopes. -/
theorem interpolate_at_point (t : List (F × F)) (h : UpStrict t) (p : F × F) (hp : p ∈ t) (below above : Option F) :
    ∃ s, interpolate t p.1 below above = .ok ⟨p.1, p.2, s⟩ := by
  obtain ⟨l, r, rfl⟩ := List.append_of_mem hp
  cases r with
  | cons b r =>
    have hlt : p.1 < b.1 := by
      have := (List.pairwise_append.mp h).2.1
      exact List.rel_of_pairwise_cons this (by simp)
    refine ⟨(line p b p.1).f1, (interpolate_between l r p b p.1 below above h.up (le_refl _) hlt).trans ?_⟩
    congr 1
    refine FPoly.ext rfl (line_left p b) rfl
  | nil =>
    rcases List.eq_nil_or_concat l with rfl | ⟨l', a, rfl⟩
    · refine ⟨(above.getD 0), ?_⟩
      simp [interpolate]
    · have e : l' ++ [a] ++ [p] = l' ++ [a, p] := by simp
      have hap : a.1 < p.1 := by
        have := (List.pairwise_append.mp h).2.2
        exact this a (by simp) p (by simp)
      rw [List.concat_eq_append] at h ⊢
      rw [e] at h ⊢
      refine ⟨(line a p p.1).f1, (interpolate_last l' a p below above h.up).trans ?_⟩
      rw [if_neg (not_le.mpr hap)]
      congr 1
      refine FPoly.ext rfl (line_right a p hap) rfl

/-! A closed formula, valid everywhere; from it continuity. -/

/-- rise from `p` on: each segment contributes its slope times the part of it left of `x` -/
def rise (above : F) : (F × F) → List (F × F) → F → F
  | p, [], x => above * max (x - p.1) 0
  | p, q :: r, x => (q.2 - p.2) / (q.1 - p.1) * (min (max x p.1) q.1 - p.1) + rise above q r x

/-- the polyline through a table with slopes `below`, `above` at its ends -/
def polyline (below above : F) : List (F × F) → F → F
  | [], _ => 0
  | p :: r, x => p.2 + below * min (x - p.1) 0 + rise above p r x

theorem rise_zero (above : F) (p : F × F) (r : List (F × F)) (x : F) (h : UpStrict (p :: r)) (hx : x ≤ p.1) : rise above p r x = 0 := by
  induction r generalizing p with
  | nil => unfold rise; rw [max_eq_right (by linarith), mul_zero]
  | cons q r ih =>
    have hpq : p.1 < q.1 := List.rel_of_pairwise_cons h (by simp)
    unfold rise
    rw [ih q h.of_cons (hx.trans hpq.le), max_eq_right hx, min_eq_left hpq.le, sub_self, mul_zero, add_zero]

theorem rise_line (above : F) (p : F × F) (l : List (F × F)) (a b : F × F) (r : List (F × F)) (x : F)
    (h : UpStrict (p :: (l ++ a :: b :: r))) (ha : a.1 ≤ x) (hb : x ≤ b.1) :
    p.2 + rise above p (l ++ a :: b :: r) x = (line a b x).f0 := by
  induction l generalizing p with
  | nil =>
    have hpa : p.1 < a.1 := List.rel_of_pairwise_cons h (by simp)
    have hab : a.1 < b.1 := List.rel_of_pairwise_cons h.of_cons (by simp)
    simp only [List.nil_append, rise]
    rw [rise_zero above b r x h.of_cons.of_cons hb, max_eq_left (hpa.le.trans ha), min_eq_right ha, max_eq_left ha, min_eq_left hb]
    unfold line
    have h1 : a.1 - p.1 ≠ 0 := sub_ne_zero.mpr hpa.ne'
    simp only
    rw [div_mul_cancel₀ _ h1]
    ring
  | cons q l ih =>
    have hpq : p.1 < q.1 := List.rel_of_pairwise_cons h (by simp)
    have hqa : q.1 < a.1 := List.rel_of_pairwise_cons h.of_cons (by simp)
    have := ih q h.of_cons
    simp only [List.cons_append, rise]
    rw [max_eq_left ((hpq.trans hqa).le.trans ha), min_eq_right (hqa.le.trans ha)]
    have h1 : q.1 - p.1 ≠ 0 := sub_ne_zero.mpr hpq.ne'
    rw [div_mul_cancel₀ _ h1, ← this]
    ring

theorem rise_above (above : F) (p : F × F) (l : List (F × F)) (b : F × F) (x : F) (h : UpStrict (p :: (l ++ [b]))) (hb : b.1 ≤ x) :
    p.2 + rise above p (l ++ [b]) x = b.2 + (x - b.1) * above := by
  induction l generalizing p with
  | nil =>
    have hpb : p.1 < b.1 := List.rel_of_pairwise_cons h (by simp)
    simp only [List.nil_append, rise]
    rw [max_eq_left (hpb.le.trans hb), min_eq_right hb, max_eq_left (by linarith)]
    have h1 : b.1 - p.1 ≠ 0 := sub_ne_zero.mpr hpb.ne'
    rw [div_mul_cancel₀ _ h1]; ring
  | cons q l ih =>
    have hpq : p.1 < q.1 := List.rel_of_pairwise_cons h (by simp)
    have hqb : q.1 < b.1 := List.rel_of_pairwise_cons h.of_cons (by simp)
    have := ih q h.of_cons
    simp only [List.cons_append, rise]
    rw [max_eq_left ((hpq.trans hqb).le.trans hb), min_eq_right (hqb.le.trans hb)]
    have h1 : q.1 - p.1 ≠ 0 := sub_ne_zero.mpr hpq.ne'
    rw [div_mul_cancel₀ _ h1, ← this]
    ring

/-- where an abscissa lies in a table of at least two entries -/
theorem locate (t : List (F × F)) (x : F) (h2 : 2 ≤ t.length) :
    (∃ a b r, t = a :: b :: r ∧ x < a.1) ∨ (∃ l a b r, t = l ++ a :: b :: r ∧ a.1 ≤ x ∧ x < b.1) ∨
    (∃ l a b, t = l ++ [a, b] ∧ b.1 ≤ x) := by
  induction t with
  | nil => simp at h2
  | cons a t ih =>
    cases t with
    | nil => simp at h2
    | cons b r =>
      by_cases hx : x < a.1
      · left; exact ⟨a, b, r, rfl, hx⟩
      · by_cases hb : x < b.1
        · right; left; exact ⟨[], a, b, r, rfl, not_lt.mp hx, hb⟩
        · cases r with
          | nil => right; right; exact ⟨[], a, b, rfl, not_lt.mp hb⟩
          | cons c r =>
            rcases ih (by simp) with ⟨a', b', r', e, h'⟩ | ⟨l, a', b', r', e, h', h''⟩ | ⟨l, a', b', e, h'⟩
            · simp only [List.cons.injEq] at e
              rw [← e.1] at h'; exact absurd h' hb
            · right; left; exact ⟨a :: l, a', b', r', by rw [e]; rfl, h', h''⟩
            · right; right; exact ⟨a :: l, a', b', by rw [e]; rfl, h'⟩

/-- **C30, closed form.** With end slopes given, the value for a table with distinct keys is the polyline, everywhere. -/
theorem interpolate_polyline (t : List (F × F)) (h : UpStrict t) (hne : t ≠ []) (x below above : F) :
    ∃ s, interpolate t x (some below) (some above) = .ok ⟨x, polyline below above t x, s⟩ := by
  match t, h, hne with
  | [p], _, _ =>
    by_cases hx : x < p.1
    · refine ⟨below, ?_⟩
      simp only [interpolate, if_pos hx, Option.getD_some, polyline, rise]
      rw [min_eq_left (by linarith), max_eq_right (by linarith)]
      congr 2; ring
    · refine ⟨above, ?_⟩
      simp only [interpolate, if_neg hx, Option.getD_some, polyline, rise]
      rw [min_eq_right (by linarith), max_eq_left (by linarith)]
      congr 2; ring
  | p :: q :: rest, h, _ =>
    rcases locate (p :: q :: rest) x (by simp) with ⟨a, b, r, e, hx⟩ | ⟨l, a, b, r, e, ha, hb⟩ | ⟨l, a, b, e, hb⟩
    · rw [e] at h ⊢
      refine ⟨below, (interpolate_below r a b x _ _ h.up hx).trans ?_⟩
      congr 2
      simp only [polyline]
      rw [rise_zero above a (b :: r) x h hx.le, min_eq_left (by linarith : x - a.1 ≤ 0), mul_comm, add_zero]
    · rw [e] at h ⊢
      refine ⟨(line a b x).f1, (interpolate_between l r a b x _ _ h.up ha hb).trans ?_⟩
      congr 1
      refine FPoly.ext rfl ?_ rfl
      cases l with
      | nil =>
        have hz := rise_zero above b r x h.of_cons hb.le
        simp only [List.nil_append, polyline, rise]
        rw [hz, max_eq_left ha, min_eq_left hb.le, min_eq_right (by linarith)]
        simp only [line]; ring
      | cons p' l' =>
        have hpa : p'.1 < a.1 := List.rel_of_pairwise_cons h (by simp)
        simp only [List.cons_append, polyline]
        rw [min_eq_right (by linarith), mul_zero, add_zero]
        exact (rise_line above p' l' a b r x h ha hb.le).symm
    · rw [e] at h ⊢
      have hab : a.1 < b.1 := by
        have := (List.pairwise_append.mp h).2.1
        exact List.rel_of_pairwise_cons this (by simp)
      have hpl : polyline below above (l ++ [a, b]) x = b.2 + (x - b.1) * above := by
        cases l with
        | nil =>
          have := rise_above above a [] b x h hb
          simp only [List.nil_append] at this ⊢
          have h0 : min (x - a.1) 0 = 0 := min_eq_right (by linarith)
          have hp : polyline below above [a, b] x = a.2 + below * min (x - a.1) 0 + rise above a [b] x := by simp only [polyline]
          rw [hp, h0, mul_zero, add_zero, this]
        | cons p' l' =>
          have hpa : p'.1 < a.1 := List.rel_of_pairwise_cons h (by simp)
          have := rise_above above p' (l' ++ [a]) b x (by simpa using h) hb
          simp only [List.append_assoc, List.singleton_append] at this
          simp only [List.cons_append, polyline]
          rw [min_eq_right (by linarith), mul_zero, add_zero, this]
      rcases eq_or_lt_of_le hb with heq | hlt
      · subst heq
        refine ⟨(line a b b.1).f1, (interpolate_last l a b (some below) (some above) h.up).trans ?_⟩
        rw [if_neg (not_le.mpr hab), hpl]
        congr 1
        refine FPoly.ext rfl ?_ rfl
        rw [line_right a b hab]; ring
      · refine ⟨above, (interpolate_above l a b x (some below) (some above) h.up hlt).trans ?_⟩
        simp only [hpl]

theorem rise_continuous (above : ℝ) (p : ℝ × ℝ) (r : List (ℝ × ℝ)) : Continuous (rise above p r) := by
  induction r generalizing p with
  | nil =>
    have e : rise above p [] = fun x => above * max (x - p.1) 0 := by funext x; simp only [rise]
    rw [e]; fun_prop
  | cons q r ih =>
    have := ih q
    have e : rise above p (q :: r) = fun x => (q.2 - p.2) / (q.1 - p.1) * (min (max x p.1) q.1 - p.1) + rise above q r x := by
      funext x; simp only [rise]
    rw [e]; fun_prop

/-- **C30, continuity.** The value is a continuous function of the abscissa. -/
theorem interpolate_continuous (t : List (ℝ × ℝ)) (h : UpStrict t) (hne : t ≠ []) (below above : ℝ) :
    ∃ f : ℝ → ℝ, Continuous f ∧ ∀ x, ∃ s, interpolate t x (some below) (some above) = .ok ⟨x, f x, s⟩ := by
  refine ⟨polyline below above t, ?_, fun x => interpolate_polyline t h hne x below above⟩
  cases t with
  | nil => exact absurd rfl hne
  | cons p r =>
    have := rise_continuous above p r
    have e : polyline below above (p :: r) = fun x => p.2 + below * min (x - p.1) 0 + rise above p r x := by
      funext x; simp only [polyline]
    rw [e]; fun_prop

example : UpStrict ([(0, 1), (1, 3), (4, 0)] : List (ℚ × ℚ)) ∧
    interpolate ([(0, 1), (1, 3), (4, 0)] : List (ℚ × ℚ)) 2 none none = .ok ⟨2, 2, -1⟩ ∧
    interpolate ([(0, 1), (1, 3), (4, 0)] : List (ℚ × ℚ)) (-1) none (some 7) = .ok ⟨-1, -1, 2⟩ ∧
    interpolate ([(0, 1), (1, 3), (4, 0)] : List (ℚ × ℚ)) 5 none (some 7) = .ok ⟨5, 7, 7⟩ :=
  ⟨by unfold UpStrict; decide +kernel, by decide +kernel, by decide +kernel, by decide +kernel⟩

/-! ## C32: delay line -/

/-- pushes in order -/
def pushAll (ps : List (F × F)) (s : Wave F) : Wave F := ps.foldl (fun s p => s.push p.1 p.2) s

theorem pushAll_w (ps : List (F × F)) (s : Wave F) :
    (pushAll ps s).w = s.w ++ ps.map (fun p => (p.1 + s.delay, p.2)) ∧ (pushAll ps s).delay = s.delay := by
  induction ps generalizing s with
  | nil => simp [pushAll]
  | cons p ps ih =>
    have := ih (s.push p.1 p.2)
    have e : pushAll (p :: ps) s = pushAll ps (s.push p.1 p.2) := rfl
    rw [e, this.1, this.2]
    simp [Wave.push]

theorem rise_shift (d above : F) (p : F × F) (r : List (F × F)) (x : F) :
    rise above (p.1 + d, p.2) (r.map (fun p => (p.1 + d, p.2))) x = rise above p r (x - d) := by
  induction r generalizing p with
  | nil => simp only [List.map_nil, rise]; congr 2; ring
  | cons q r ih =>
    simp only [List.map_cons, rise]
    rw [ih q]
    congr 1
    have e1 : q.1 + d - (p.1 + d) = q.1 - p.1 := by ring
    have e2 : min (max x (p.1 + d)) (q.1 + d) - (p.1 + d) = min (max (x - d) p.1) q.1 - p.1 := by
      have : max x (p.1 + d) = max (x - d) p.1 + d := by rw [max_add_add_right_eq x d p.1]
      rw [this, min_add_add_right]; ring
    rw [e1, e2]
  where max_add_add_right_eq (x d p : F) : max x (p + d) = max (x - d) p + d := by
          rw [← max_add_add_right]; congr 1; ring

/-- **C32, output (partial: at least one push).**  After any pushes at strictly increasing times the output at `t` is the
polyline through the pushed input, held constant at its ends, at `t - delay`. -/
theorem delay_line_partial (ps : List (F × F)) (h : UpStrict ps) (hne : ps ≠ []) (d t : F) :
    ∃ s, (pushAll ps ⟨[], d⟩).vOut t = .ok ⟨t, polyline 0 0 ps (t - d), s⟩ := by
  obtain ⟨hw, _⟩ := pushAll_w ps (⟨[], d⟩ : Wave F)
  unfold Wave.vOut
  rw [hw, List.nil_append]
  have hs : UpStrict (ps.map (fun p : F × F => (p.1 + d, p.2))) := by
    unfold UpStrict
    rw [List.pairwise_map]
    exact h.imp (fun hh => by simpa using hh)
  obtain ⟨s, e⟩ := interpolate_polyline _ hs (by simpa using hne) t 0 0
  refine ⟨s, e.trans ?_⟩
  congr 2
  cases ps with
  | nil => exact absurd rfl hne
  | cons p r =>
    simp only [List.map_cons, polyline, zero_mul]
    rw [rise_shift]

/-- **C32, reflection**: twice the terminal voltage minus the arriving wave, exactly or (a difference below the round-off
tolerance) zero. -/
theorem reflection (tol t v : F) (s : Wave F) (p : FPoly F) (h : s.vOut t = .ok p) :
    s.vReflect tol t v = .ok (v * 2 - p.f0) ∨ (s.vReflect tol t v = .ok 0 ∧ |v * 2 - p.f0| < |v * 2 * tol|) := by
  unfold Wave.vReflect
  rw [h]
  simp only [Gnucap.Load.dnDiff, Gnucap.Load.fixzero]
  split
  · right; exact ⟨rfl, by assumption⟩
  · left; rfl

/-- A line that has just begun puts out 0 at every time before its first accepted step, whatever its delay. -/
theorem line_begins_with_zero (td : F) (htd : 0 < td) (s : Wave F) (t : F) : ∃ m, (s.lineBegin td).vOut t = .ok ⟨t, 0, m⟩ := by
  have e : s.lineBegin td = pushAll [(0 - td, 0), (0, 0)] ⟨[], s.delay⟩ := rfl
  rw [e]
  obtain ⟨m, hm⟩ := delay_line_partial (F := F) [(0 - td, 0), (0, 0)] (by
    unfold UpStrict; simp [htd]) (by simp) s.delay t
  refine ⟨m, hm.trans ?_⟩
  congr 2
  simp [polyline, rise]

/-- **C32 fails for an empty wave**: the comment at `initialize` says "fill it with all 0"; asking it for a value is an exception. -/
theorem empty_wave_throws (d t : F) : (Wave.initialize (⟨[], d⟩ : Wave F)).vOut t = .throw := rfl

/-- Two pushes at the same time, asked exactly there before anything later is pushed: an exception. -/
theorem repeated_push_throws : (pushAll [(0, 0), (1, 2), (1, 3)] (⟨[], 0⟩ : Wave ℚ)).vOut 1 = .throw := by decide +kernel

example : UpStrict ([(0, 1), (1, 3), (4, 0)] : List (ℚ × ℚ)) ∧
    (pushAll [(0, 1), (1, 3), (4, 0)] (⟨[], 10⟩ : Wave ℚ)).vOut 12 = .ok ⟨12, 2, -1⟩ :=
  ⟨by unfold UpStrict; decide +kernel, by decide +kernel⟩

/-! ## C29: PWL source -/

theorem precalcLoop_spec (raw num : List (F × F)) (last : Option F) :
    precalcLoop raw last num = some (num ++ raw) ∧ (raw.Pairwise (fun p q => p.1 ≤ q.1) ∧ ∀ l ∈ last, ∀ p ∈ raw, l ≤ p.1) ∨
    precalcLoop raw last num = none ∧ ¬ (raw.Pairwise (fun p q => p.1 ≤ q.1) ∧ ∀ l ∈ last, ∀ p ∈ raw, l ≤ p.1) := by
  induction raw generalizing num last with
  | nil => left; simp [precalcLoop]
  | cons p raw ih =>
    have step : (∀ l ∈ last, l ≤ p.1) → precalcLoop (p :: raw) last num = precalcLoop raw (some p.1) (num ++ [p]) := by
      intro hl
      cases last with
      | none => simp only [precalcLoop]
      | some l => simp only [precalcLoop]; rw [if_neg (not_lt.mpr (hl l rfl))]
    by_cases hl : ∀ l ∈ last, l ≤ p.1
    · rw [step hl]
      rcases ih (num ++ [p]) (some p.1) with ⟨e, h1, h2⟩ | ⟨e, h⟩
      · left
        refine ⟨by rw [e]; simp, List.Pairwise.cons (fun q hq => h2 p.1 rfl q hq) h1, ?_⟩
        intro l hl' q hq
        rcases List.mem_cons.mp hq with rfl | hq
        · exact hl l hl'
        · exact (hl l hl').trans (h2 p.1 rfl q hq)
      · right
        refine ⟨e, fun hh => h ⟨hh.1.of_cons, ?_⟩⟩
        intro l hl' q hq
        cases hl'
        exact List.rel_of_pairwise_cons hh.1 hq
    · right
      obtain ⟨l, hl1, hl2⟩ : ∃ l ∈ last, p.1 < l := by
        by_contra hn
        exact hl (fun l hl' => not_lt.mp fun hh => hn ⟨l, hl', hh⟩)
      refine ⟨?_, fun hh => absurd (hh.2 l hl1 p (by simp)) (not_le.mpr hl2)⟩
      cases hl1
      simp only [precalcLoop]
      rw [if_pos hl2]

/-- **C29, unsorted tables are rejected**, sorted ones (equal times allowed) are taken over. -/
theorem pwl_table_check (raw : List (F × F)) : (precalcLast raw [] = some raw ↔ Up raw) ∧ (precalcLast raw [] = none ↔ ¬ Up raw) := by
  rcases precalcLoop_spec raw [] none with ⟨e, h, _⟩ | ⟨e, h⟩
  · rw [List.nil_append] at e
    exact ⟨⟨fun _ => h, fun _ => e⟩, ⟨(fun h' => by rw [precalcLast, e] at h'; cases h'), fun h' => absurd h h'⟩⟩
  · have h' : ¬ Up raw := fun hh => h ⟨hh, by simp⟩
    refine ⟨⟨(fun he => by rw [precalcLast, e] at he; cases he), fun hh => absurd hh h'⟩, ⟨fun _ => h', fun _ => e⟩⟩

/-- **C29, source value (partial: first analysis, distinct times).** The polyline through the table, constant outside; so it takes
the given values at the given times and is continuous. -/
theorem pwl_source_value_partial (raw : List (F × F)) (h : UpStrict raw) (hne : raw ≠ []) (x : F) :
    ∃ num s, precalcLast raw [] = some num ∧ pwlEval true num x = .ok ⟨x, polyline 0 0 raw x, s⟩ := by
  obtain ⟨s, e⟩ := interpolate_polyline raw h hne x 0 0
  exact ⟨raw, s, (pwl_table_check raw).1.mpr h.up, e⟩

/-- **C29, not a source (partial: first analysis, at least two points, distinct times).** Values at the points; the end lines continued. -/
theorem pwl_device_value_partial (l r : List (F × F)) (a b : F × F) (x : F) (h : UpStrict (l ++ a :: b :: r))
    (ha : a.1 ≤ x ∨ l = []) (hb : x < b.1 ∨ r = []) : pwlEval false (l ++ a :: b :: r) x = .ok (line a b x) := by
  have hab : a.1 < b.1 := by
    have := (List.pairwise_append.mp h).2.1
    exact List.rel_of_pairwise_cons this (by simp)
  unfold pwlEval
  simp only [Bool.false_eq_true, if_false]
  rcases lt_or_ge x b.1 with h1 | h1
  · rcases le_or_gt a.1 x with h2 | h2
    · exact interpolate_between l r a b x none none h.up h2 h1
    · have hl : l = [] := by rcases ha with q | q; exact absurd q (not_le.mpr h2); exact q
      subst hl
      rw [List.nil_append] at h ⊢
      rw [interpolate_below r a b x none none h.up h2]
      simp only
      rw [if_neg (not_le.mpr hab)]
  · have hr : r = [] := by rcases hb with q | q; exact absurd q (not_lt.mpr h1); exact q
    subst hr
    rcases eq_or_lt_of_le h1 with q | q
    · rw [← q, interpolate_last l a b none none h.up, if_neg (not_le.mpr hab)]
    · rw [interpolate_above l a b x none none h.up q]
      simp only
      rw [if_neg (not_le.mpr hab)]

theorem up_partition (num : List (F × F)) (h : Up num) (x : F) :
    ∃ L R, num = L ++ R ∧ (∀ p ∈ L, p.1 ≤ x) ∧ (∀ p ∈ R, x < p.1) := by
  refine ⟨num.takeWhile (fun p => decide (p.1 ≤ x)), num.dropWhile (fun p => decide (p.1 ≤ x)), (List.takeWhile_append_dropWhile).symm, ?_, ?_⟩
  · intro p hp
    have := (List.all_takeWhile (p := fun p : F × F => decide (p.1 ≤ x)) (l := num))
    rw [List.all_eq_true] at this
    exact of_decide_eq_true (this p hp)
  · have hd : (num.dropWhile (fun p => decide (p.1 ≤ x))).Pairwise (fun p q => p.1 ≤ q.1) := h.sublist (List.dropWhile_sublist _)
    intro p hp
    cases hc : num.dropWhile (fun p => decide (p.1 ≤ x)) with
    | nil => rw [hc] at hp; cases hp
    | cons q R =>
      have hq : x < q.1 := by
        have := List.head_dropWhile_not (fun p : F × F => decide (p.1 ≤ x)) (l := num) (by rw [hc]; simp)
        simp only [hc, List.head_cons, decide_eq_false_iff_not, not_le] at this
        exact this
      rw [hc] at hp hd
      rcases List.mem_cons.mp hp with rfl | hp
      · exact hq
      · exact hq.trans_le (List.rel_of_pairwise_cons hd hp)

/-- **C29, announced corners (partial: asked at or after the first point, see `pwl_review_before_first`).** The event announced at
`time` is the first table time after `time + 2*dtmin`: it is in the table, later, and no table time lies between; nothing is
announced only if no table time is later. -/
theorem pwl_review_next_corner_partial (num : List (F × F)) (h : Up num) (time dtmin : F)
    (hfirst : ∃ p ∈ num, p.1 ≤ time + dtmin * 2) :
    ∃ e, pwlReview num time dtmin = .ok e ∧
      (∀ c, e = some c → (∃ p ∈ num, p.1 = c) ∧ time + dtmin * 2 < c ∧ ∀ p ∈ num, p.1 ≤ time + dtmin * 2 ∨ c ≤ p.1) ∧
      (e = none → ∀ p ∈ num, p.1 ≤ time + dtmin * 2) := by
  unfold pwlReview
  generalize time + dtmin * 2 = x at hfirst ⊢
  obtain ⟨L, R, rfl, hL, hR⟩ := up_partition num h x
  obtain ⟨hk, hp⟩ := upperBound_split hL hR
  have hLne : L ≠ [] := by
    rintro rfl
    obtain ⟨p, hp, hpx⟩ := hfirst
    exact absurd hpx (not_le.mpr (hR p (by simpa using hp)))
  have hlen : L.length ≠ 0 := by simpa using hLne
  simp only [hp, Bool.not_true, Bool.false_eq_true, if_false, hk, if_neg hlen]
  refine ⟨_, rfl, ?_, ?_⟩
  · intro c hc
    cases R with
    | nil => simp at hc
    | cons q R =>
      simp only [List.getElem?_append_right (le_refl _), Nat.sub_self, List.getElem?_cons_zero, Option.map_some, Option.some.injEq] at hc
      subst hc
      refine ⟨⟨q, by simp, rfl⟩, hR q (by simp), ?_⟩
      intro p hpm
      rcases List.mem_append.mp hpm with hm | hm
      · exact Or.inl (hL p hm)
      · rcases List.mem_cons.mp hm with rfl | hm
        · exact Or.inr (le_refl _)
        · exact Or.inr (List.rel_of_pairwise_cons (List.pairwise_append.mp h).2.1 hm)
  · intro hc
    cases R with
    | nil => intro p hpm; exact hL p (by simpa using hpm)
    | cons q R => simp [List.getElem?_append_right (le_refl _)] at hc

/-- **C29, no kink is stepped over (partial as before, distinct times).**  From `time + 2*dtmin` to the announced event the source is one line. -/
theorem pwl_linear_until_event_partial (num : List (F × F)) (h : UpStrict num) (time dtmin c : F)
    (he : pwlReview num time dtmin = .ok (some c)) :
    ∃ a b : F × F, ∀ x, time + dtmin * 2 ≤ x → x < c → pwlEval true num x = .ok (line a b x) := by
  unfold pwlReview at he
  generalize time + dtmin * 2 = t0 at he
  obtain ⟨L, R, rfl, hL, hR⟩ := up_partition num h.up t0
  obtain ⟨hk, hp⟩ := upperBound_split hL hR
  simp only [hp, Bool.not_true, Bool.false_eq_true, if_false, hk] at he
  have hlen : L.length ≠ 0 := by
    intro h0
    rw [if_pos h0] at he; cases he
  rw [if_neg hlen] at he
  rcases List.eq_nil_or_concat L with rfl | ⟨L', a, rfl⟩
  · exact absurd rfl hlen
  cases R with
  | nil => simp at he
  | cons b R =>
    rw [List.concat_eq_append] at *
    simp only [List.getElem?_append_right (le_refl _), Nat.sub_self, List.getElem?_cons_zero, Option.map_some, Out.ok.injEq,
      Option.some.injEq] at he
    subst he
    refine ⟨a, b, fun x h1 h2 => ?_⟩
    have e : L' ++ [a] ++ b :: R = L' ++ a :: b :: R := by simp
    rw [e] at h ⊢
    unfold pwlEval
    exact interpolate_between L' R a b x _ _ h.up ((hL a (by simp)).trans h1) h2

/-- **C29 fails at the first review** of a source whose table begins later than `2*dtmin`: the iterator before the beginning. -/
theorem pwl_review_before_first (num : List (F × F)) (h : Up num) (hne : num ≠ []) (time dtmin : F)
    (hb : ∀ p ∈ num, time + dtmin * 2 < p.1) : pwlReview num time dtmin = .ub := by
  unfold pwlReview
  generalize time + dtmin * 2 = x at hb ⊢
  obtain ⟨hk, hp⟩ := upperBound_split (L := []) (R := num) (x := x) (by simp) hb
  rw [List.nil_append] at hk hp
  simp only [hp, hk]
  rfl

/-- **C29 fails from the second analysis on**: the table is appended to itself, and searching it breaks the precondition of the search. -/
theorem pwl_second_analysis_doubles (raw : List (F × F)) (h : Up raw) :
    (precalcLast raw []).bind (precalcLast raw) = some (raw ++ raw) := by
  rw [(pwl_table_check raw).1.mpr h]
  rcases precalcLoop_spec raw raw none with ⟨e, _, _⟩ | ⟨_, h'⟩
  · exact e
  · exact absurd ⟨h, by simp⟩ h'

theorem pwl_second_analysis_ub : precalcLast [(0, 0), (1, 5), (2, 0)] [] = some [((0 : ℚ), 0), (1, 5), (2, 0)] ∧
    pwlEval true [((0 : ℚ), (0 : ℚ)), (1, 5), (2, 0)] 0 = .ok ⟨0, 0, 5⟩ ∧
    ((precalcLast [(0, 0), (1, 5), (2, 0)] []).bind (precalcLast [(0, 0), (1, 5), (2, 0)])).map
      (fun n => pwlEval true n (0 : ℚ)) = some .ub := by decide +kernel

/-- A one point table (a constant) works in the first analysis; in the second one it throws at its own time. -/
theorem pwl_one_point_second_analysis_throws (k v : F) : pwlEval true [(k, v)] k = .ok ⟨k, v, 0⟩ ∧
    ((precalcLast [(k, v)] []).bind (precalcLast [(k, v)])).map (fun n => pwlEval true n k) = some .throw := by
  constructor
  · simp [pwlEval, interpolate]
  · rw [pwl_second_analysis_doubles _ (by unfold Up; simp)]
    simp only [List.singleton_append, Option.map_some, Option.some.injEq]
    have := interpolate_last [] (k, v) (k, v) (some 0) (some 0) (by unfold Up; simp)
    simp only [List.nil_append, le_refl, if_true] at this
    exact this

/-- A step at the very end of the table is accepted, announced as an event, and throws when the analysis gets there. -/
theorem pwl_final_step_throws (l : List (F × F)) (k v w : F) (h : Up (l ++ [(k, v), (k, w)])) :
    precalcLast (l ++ [(k, v), (k, w)]) [] = some (l ++ [(k, v), (k, w)]) ∧ pwlEval true (l ++ [(k, v), (k, w)]) k = .throw := by
  refine ⟨(pwl_table_check _).1.mpr h, ?_⟩
  have := interpolate_last l (k, v) (k, w) (some 0) (some 0) h
  simp only [le_refl, if_true] at this
  exact this

/-- A corner less than `2*dtmin` away is not announced. -/
theorem pwl_near_corner_missed : pwlReview [((0 : ℚ), (0 : ℚ)), (10, 0), (11, 5), (20, 5)] 9 1 = .ok (some 20) := by decide +kernel

example : Up ([(0, 0), (1, 5), (1, 6), (2, 0)] : List (ℚ × ℚ)) ∧ ¬ Up ([(0, 0), (2, 5), (1, 6)] : List (ℚ × ℚ)) ∧
    pwlEval true ([(0, 0), (1, 5), (1, 6), (2, 0)] : List (ℚ × ℚ)) 1 = .ok ⟨1, 6, -6⟩ ∧
    pwlReview ([(0, 0), (1, 5), (1, 6), (2, 0)] : List (ℚ × ℚ)) 0 (1/10) = .ok (some 1) :=
  ⟨by unfold Up; decide +kernel, by unfold Up; decide +kernel, by decide +kernel, by decide +kernel⟩

end Gnucap.Interp
