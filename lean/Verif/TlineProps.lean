import Verif.TlineModel
import Verif.InterpProps
import Mathlib.Analysis.SpecialFunctions.Trigonometric.Complex

/-!
# Transmission line (C68)
-/
set_option linter.unusedSectionVars false
set_option linter.unusedSimpArgs false
namespace Gnucap.Tline
open Gnucap.Interp
open Gnucap.Mat (Loaded loadSymmetric loadAsymmetric vset inc loadSymmetric_stamp loadAsymmetric_stamp)

section Tran
variable {F : Type _} [Field F] [LinearOrder F] [IsStrictOrderedRing F]

deriving instance DecidableEq for Wave
deriving instance DecidableEq for Dev
deriving instance DecidableEq for Rec

/-! ## what comes out of a wave -/

/-- Specification: what arrives at time `t` at the far end of a line of delay `td` into which `ps` (times and values) was
sent from time 0 on: nothing until `td`, then the polyline through `ps`, `td` later, its last value held. -/
def arrives (td : F) (ps : List (F × F)) (t : F) : F := if t < td then 0 else polyline 0 0 ps (t - td)

/-- entries before a table with distinct keys do not matter from its first key on -/
theorem interpolate_append (pre T : List (F × F)) (h : Up (pre ++ T)) (hs : UpStrict T) (h2 : 2 ≤ T.length) (x s₁ s₂ : F)
    (hx : ∀ p ∈ T.head?, p.1 ≤ x) : interpolate (pre ++ T) x (some s₁) (some s₂) = interpolate T x (some s₁) (some s₂) := by
  have hu : Up T := hs.up
  rcases locate T x h2 with ⟨a, b, r, e, hxa⟩ | ⟨l, a, b, r, e, ha, hb⟩ | ⟨l, a, b, e, hb⟩
  · subst e
    exact absurd hxa (not_lt.mpr (hx a (by simp)))
  · subst e
    rw [interpolate_between l r a b x _ _ hu ha hb, ← List.append_assoc,
      interpolate_between (pre ++ l) r a b x _ _ (by rw [List.append_assoc]; exact h) ha hb]
  · subst e
    have hab : a.1 < b.1 := by
      unfold UpStrict at hs; rw [List.pairwise_append] at hs
      exact List.rel_of_pairwise_cons hs.2.1 (by simp)
    have h' : Up ((pre ++ l) ++ [a, b]) := by rw [List.append_assoc]; exact h
    rcases eq_or_lt_of_le hb with hh | hh
    · subst hh
      rw [← List.append_assoc, interpolate_last _ _ _ _ _ h', interpolate_last _ _ _ _ _ hu]
    · rw [← List.append_assoc, interpolate_above _ _ _ _ _ _ h' hh, interpolate_above _ _ _ _ _ _ hu hh]

/-- What was sent starts at time 0, at distinct times -/
def Sent (ps : List (F × F)) : Prop := UpStrict ps ∧ ∀ p ∈ ps.head?, p.1 = 0

/-- the wave after `tr_begin` and pushes -/
def waveOf (td : F) (ps : List (F × F)) : Wave F := pushAll ps ((⟨[], td⟩ : Wave F).lineBegin td)

theorem waveOf_w (td : F) (ps : List (F × F)) :
    (waveOf td ps).w = [(0, 0), (td, 0)] ++ ps.map (fun p => (p.1 + td, p.2)) := by
  unfold waveOf
  rw [(pushAll_w _ _).1]
  simp [Wave.lineBegin, Wave.initialize, Wave.push]

theorem waveOf_push (td : F) (ps : List (F × F)) (t v : F) : (waveOf td ps).push t v = waveOf td (ps ++ [(t, v)]) := by
  unfold waveOf pushAll
  rw [List.foldl_append]; rfl

theorem sent_up {td : F} (htd : 0 < td) {ps : List (F × F)} (h : Sent ps) :
    Up ([(0, 0), (td, 0)] ++ ps.map (fun p => (p.1 + td, p.2))) := by
  have hge : ∀ p ∈ ps, 0 ≤ p.1 := by
    intro p hp
    cases ps with
    | nil => simp at hp
    | cons q r =>
      have hq : q.1 = 0 := h.2 q (by simp)
      rcases List.mem_cons.1 hp with rfl | hr
      · exact hq.ge
      · exact hq ▸ (List.rel_of_pairwise_cons h.1 hr).le
  unfold Up
  rw [List.pairwise_append]
  refine ⟨by simp [htd.le], ?_, ?_⟩
  · rw [List.pairwise_map]
    exact h.1.imp (fun hh => by simpa using hh.le)
  · intro a ha b hb
    obtain ⟨p, hp, rfl⟩ := List.mem_map.1 hb
    have := hge p hp
    rcases List.mem_cons.1 ha with rfl | ha
    · simp only; linarith
    · rw [List.mem_singleton] at ha; subst ha; simp only; linarith

/-- **C68, delay.**  After anything sent in from time 0 on, the wave comes out a delay later; the one instant at which this
is an exception is `td` itself, if only one sample has been sent. -/
theorem wave_out (td : F) (htd : 0 < td) (ps : List (F × F)) (h : Sent ps) (t : F) (hx : ¬ (ps.length = 1 ∧ t = td)) :
    ∃ m, (waveOf td ps).vOut t = .ok ⟨t, arrives td ps t, m⟩ := by
  have hu := sent_up htd h
  unfold Wave.vOut
  rw [waveOf_w]
  unfold arrives
  by_cases h0 : t < 0
  · refine ⟨0, ?_⟩
    have := interpolate_below ((ps.map fun p => (p.1 + td, p.2))) (0, 0) (td, 0) t (some 0) (some 0) (by simpa using hu) h0
    rw [if_pos (h0.trans htd)]
    simpa using this
  by_cases h1 : t < td
  · refine ⟨(line (0, 0) (td, 0) t).f1, (interpolate_between [] _ (0, 0) (td, 0) t _ _ (by simpa using hu) (not_lt.1 h0) h1).trans ?_⟩
    rw [if_pos h1]
    congr 1
    refine Gnucap.Integ.FPoly.ext rfl ?_ rfl
    simp [line]
  rw [if_neg h1]
  match ps, h, hu, hx with
  | [], _, hu, _ =>
    rcases eq_or_lt_of_le (not_lt.1 h1) with e | e
    · refine ⟨(line (0, 0) (td, 0) td).f1, ?_⟩
      have := interpolate_last [] (0, 0) (td, 0) (some 0) (some 0) (by simpa using hu)
      rw [if_neg (by simpa using htd)] at this
      subst e
      simp only [List.map_nil, List.append_nil]
      refine (by simpa using this : _ = _).trans ?_
      congr 1
      refine Gnucap.Integ.FPoly.ext rfl ?_ rfl
      simp [line, polyline]
    · refine ⟨0, ?_⟩
      have := interpolate_above [] (0, 0) (td, 0) t (some 0) (some 0) (by simpa using hu) e
      simpa [polyline] using this
  | [p], h, hu, hx =>
    have hp : p.1 = 0 := h.2 p (by simp)
    have e : td < t := lt_of_le_of_ne (not_lt.1 h1) (fun hh => hx ⟨rfl, hh.symm⟩)
    refine ⟨0, ?_⟩
    have := interpolate_above [(0, 0)] (td, 0) (p.1 + td, p.2) t (some 0) (some 0) (by simpa using hu) (by rw [hp]; simpa using e)
    simpa [polyline, rise] using this
  | p :: q :: r, h, hu, _ =>
    have hs : UpStrict ((p :: q :: r).map fun p => (p.1 + td, p.2)) := by
      unfold UpStrict; rw [List.pairwise_map]
      exact h.1.imp (fun hh => by simpa using hh)
    have hp : p.1 = 0 := h.2 p (by simp)
    rw [interpolate_append _ _ hu hs (by simp) t 0 0 (by
      intro a ha
      simp only [List.map_cons, List.head?_cons, Option.mem_some_iff] at ha
      subst ha
      simp only; linarith [not_lt.1 h1])]
    have := delay_line_partial (p :: q :: r) h.1 (by simp) td t
    unfold Wave.vOut at this
    rw [(pushAll_w _ _).1] at this
    simpa using this

/-- ... and there it is one. -/
theorem wave_out_throws (td : F) (htd : 0 < td) (v : F) : (waveOf td [(0, v)]).vOut td = .throw := by
  have hu := sent_up htd (ps := [((0 : F), v)]) ⟨by simp [UpStrict], by simp⟩
  have := interpolate_last [(0, 0)] (td, 0) (0 + td, v) (some 0) (some 0) (by simpa using hu)
  rw [if_pos (by simp)] at this
  unfold Wave.vOut
  rw [waveOf_w]
  simpa using this

example : Sent ([(0, 5), (1, 7), (3, 1)] : List (ℚ × ℚ)) ∧ (waveOf 10 [(0, 5), (1, 7), (3, 1)]).vOut 12 = .ok ⟨(12 : ℚ), 4, -3⟩ :=
  ⟨⟨by unfold UpStrict; decide +kernel, by simp⟩, by decide +kernel⟩

/-! ## what is not sent yet does not matter -/

theorem rise_snoc (p : F × F) (r : List (F × F)) (q : F × F) (x : F) (h : UpStrict (p :: (r ++ [q])))
    (hx : x ≤ ((p :: r).getLast (by simp)).1) : rise 0 p (r ++ [q]) x = rise 0 p r x := by
  induction r generalizing p with
  | nil =>
    have hpq : p.1 < q.1 := List.rel_of_pairwise_cons h (by simp)
    simp only [List.getLast_singleton] at hx
    simp only [List.nil_append, rise, zero_mul, add_zero]
    rw [max_eq_right hx, min_eq_left hpq.le, sub_self, mul_zero]
  | cons a r ih =>
    simp only [List.cons_append, rise]
    rw [ih a h.of_cons (by simpa using hx)]

theorem arrives_snoc (td : F) (ps : List (F × F)) (q : F × F) (t : F) (h : UpStrict (ps ++ [q])) (hq : ps = [] → t < td)
    (hx : ∀ p ∈ ps.getLast?, t ≤ p.1 + td) : arrives td (ps ++ [q]) t = arrives td ps t := by
  unfold arrives
  by_cases ht : t < td
  · rw [if_pos ht, if_pos ht]
  rw [if_neg ht, if_neg ht]
  cases ps with
  | nil => exact absurd (hq rfl) ht
  | cons p r =>
    have := hx ((p :: r).getLast (by simp)) (List.getLast?_eq_getLast_of_ne_nil (by simp))
    simp only [List.cons_append, polyline, zero_mul, add_zero]
    rw [rise_snoc p r q (t - td) (by simpa using h) (by linarith)]

/-! ## a transient -/

/-- the current into the port IN, with the line loaded as it was at that step -/
def Rec.iin (z0 : F) (r : Rec F) : F := r.vin / z0 - r.ir
/-- the current into the port OUT -/
def Rec.iout (z0 : F) (r : Rec F) : F := r.vout / z0 - r.if_

/-- `v + z0 i`, unless that is noise besides twice `v` -/
def launch (tol z0 v i : F) : F := if |v + z0 * i| < |v * 2 * tol| then 0 else v + z0 * i

/-- the waves launched at the two ports over the accepted steps -/
def sentIn (tol z0 : F) (rs : List (Rec F)) : List (F × F) := rs.map fun r => (r.t, launch tol z0 r.vin (r.iin z0))
/-- the waves launched at OUT -/
def sentOut (tol z0 : F) (rs : List (Rec F)) : List (F × F) := rs.map fun r => (r.t, launch tol z0 r.vout (r.iout z0))

/-- Attempts the transient analysis may make after the accepted times `ts`: later than the last accepted one, by no more than
the line asks for, and not the instant `td` as the very first step -/
def Legal (td : F) : List F → List (Att F) → Prop
  | _, [] => True
  | ts, a :: as => (∀ t ∈ ts.getLast?, t < a.t ∧ a.t ≤ review td t) ∧ ¬ (ts.length = 1 ∧ a.t = td) ∧
      Legal td (if a.ok then ts ++ [a.t] else ts) as

theorem launch_dn (tol z0 v arr : F) (hz : z0 ≠ 0) : Gnucap.Load.dnDiff tol (v * 2) arr = launch tol z0 v (v / z0 - arr / z0) := by
  unfold Gnucap.Load.dnDiff Gnucap.Load.fixzero launch
  have e : v + z0 * (v / z0 - arr / z0) = v * 2 - arr := by field_simp; ring
  rw [e]

/-- the state after accepted steps -/
structure Inv (td tol z0 : F) (s : Dev F × List (Rec F)) : Prop where
  fwd : s.1.fwd = waveOf td (sentIn tol z0 s.2)
  refl : s.1.refl = waveOf td (sentOut tol z0 s.2)
  up : (s.2.map Rec.t).Pairwise (· < ·)
  first : ∀ t ∈ (s.2.map Rec.t).head?, t = 0

theorem sent_of (rs : List (Rec F)) (g : Rec F → F) (up : (rs.map Rec.t).Pairwise (· < ·)) (first : ∀ t ∈ (rs.map Rec.t).head?, t = 0) :
    Sent (rs.map fun r => (r.t, g r)) := by
  constructor
  · unfold UpStrict
    rw [List.pairwise_map] at up ⊢
    exact up
  · intro p hp
    cases rs with
    | nil => simp at hp
    | cons r rs =>
      simp only [List.map_cons, List.head?_cons, Option.mem_some_iff] at hp first
      subst hp
      exact first r.t rfl

/-- The method of characteristics, at one step: what each port sees is what the other one sent. -/
def Char (td tol z0 : F) (before : List (Rec F)) (r : Rec F) : Prop :=
  r.vout - z0 * r.iout z0 = arrives td (sentIn tol z0 before) r.t ∧
  r.vin - z0 * r.iin z0 = arrives td (sentOut tol z0 before) r.t

theorem attempt_spec (td tol z0 : F) (htd : 0 < td) (hz : z0 ≠ 0) (a : Att F) (s : Dev F × List (Rec F)) (hs : Inv td tol z0 s)
    (h1 : ∀ t ∈ (s.2.map Rec.t).getLast?, t < a.t ∧ a.t ≤ review td t) (h0 : s.2 = [] → a.t = 0) (h2 : ¬ (s.2.length = 1 ∧ a.t = td)) :
    ∃ s', Dev.attempt z0 tol a s = .ok s' ∧ Inv td tol z0 s' ∧
      s'.1.if0 = arrives td (sentIn tol z0 s.2) a.t / z0 ∧ s'.1.ir0 = arrives td (sentOut tol z0 s.2) a.t / z0 ∧
      (if a.ok then ∃ r, s'.2 = s.2 ++ [r] ∧ r.t = a.t ∧ r.vin = a.vin ∧ r.vout = a.vout ∧ Char td tol z0 s.2 r
        else s'.2 = s.2) := by
  obtain ⟨d, rs⟩ := s
  obtain ⟨hf, hr, hup, hfi⟩ := hs
  simp only at hf hr hup hfi h1 h0 h2
  have hsi : Sent (sentIn tol z0 rs) := sent_of rs _ hup hfi
  have hso : Sent (sentOut tol z0 rs) := sent_of rs _ hup hfi
  obtain ⟨m1, e1⟩ := wave_out td htd _ hsi a.t (by simpa [sentIn] using h2)
  obtain ⟨m2, e2⟩ := wave_out td htd _ hso a.t (by simpa [sentOut] using h2)
  have hadv : d.advance z0 a.t = .ok { d with
      if0 := arrives td (sentIn tol z0 rs) a.t / z0, ir0 := arrives td (sentOut tol z0 rs) a.t / z0 } := by
    unfold Dev.advance; rw [hf, hr, e1, e2]
  unfold Dev.attempt
  simp only
  rw [hadv]
  simp only
  cases ha : a.ok with
  | false =>
    exact ⟨_, rfl, ⟨hf, hr, hup, hfi⟩, rfl, rfl, rfl⟩
  | true =>
    simp only [if_true]
    set A := arrives td (sentIn tol z0 rs) a.t with hA
    set B := arrives td (sentOut tol z0 rs) a.t with hB
    set r : Rec F := ⟨a.t, a.vin, a.vout, B / z0, A / z0⟩ with hrdef
    have up' : ((rs ++ [r]).map Rec.t).Pairwise (· < ·) := by
      rw [List.map_append, List.pairwise_append]
      refine ⟨hup, by simp, ?_⟩
      intro x hx y hy
      simp only [List.map_cons, List.map_nil, List.mem_singleton] at hy
      subst hy
      have hne : rs.map Rec.t ≠ [] := List.ne_nil_of_mem hx
      have hl := (h1 _ (List.getLast?_eq_getLast_of_ne_nil hne)).1
      refine lt_of_le_of_lt ?_ hl
      rcases List.mem_iff_getElem.1 hx with ⟨i, hi, rfl⟩
      rw [List.getLast_eq_getElem]
      rcases Nat.lt_or_ge i ((rs.map Rec.t).length - 1) with hlt | hge
      · exact (List.pairwise_iff_getElem.1 hup i _ hi (by omega) hlt).le
      · have : i = (rs.map Rec.t).length - 1 := by omega
        subst this; exact le_rfl
    have fi' : ∀ t ∈ ((rs ++ [r]).map Rec.t).head?, t = 0 := by
      intro t ht
      cases rs with
      | nil =>
        simp only [List.nil_append, List.map_cons, List.map_nil, List.head?_cons, Option.mem_some_iff] at ht
        rw [← ht]; exact h0 rfl
      | cons q qs =>
        simp only [List.cons_append, List.map_cons, List.head?_cons, Option.mem_some_iff] at ht hfi
        exact hfi t ht
    have hso' : Sent (sentOut tol z0 (rs ++ [r])) := sent_of _ _ up' fi'
    have w1 : d.fwd.vReflect tol a.t a.vout = .ok (launch tol z0 r.vout (r.iout z0)) := by
      unfold Wave.vReflect
      rw [hf, e1]
      simp only [Rec.iout, hrdef]
      rw [launch_dn tol z0 _ _ hz]
    have push1 : d.refl.push a.t (launch tol z0 r.vout (r.iout z0)) = waveOf td (sentOut tol z0 (rs ++ [r])) := by
      rw [hr, waveOf_push]
      simp [sentOut, hrdef]
    obtain ⟨m3, e3⟩ := wave_out td htd _ hso' a.t (by
      rintro ⟨hl, ht⟩
      have : rs = [] := by
        have : rs.length = 0 := by simpa [sentOut] using hl
        exact List.length_eq_zero_iff.1 this
      rw [h0 this] at ht
      exact absurd ht htd.ne)
    have same : arrives td (sentOut tol z0 (rs ++ [r])) a.t = B := by
      rw [hB]
      have e : sentOut tol z0 (rs ++ [r]) = sentOut tol z0 rs ++ [(a.t, launch tol z0 r.vout (r.iout z0))] := by
        simp [sentOut, hrdef]
      rw [e]
      refine arrives_snoc td _ _ a.t (by rw [← e]; exact hso'.1) ?_ ?_
      · intro hn
        have : rs = [] := by simpa [sentOut] using hn
        rw [h0 this]; exact htd
      · intro p hp
        rw [sentOut, List.getLast?_map] at hp
        rw [Option.mem_def, Option.map_eq_some_iff] at hp
        obtain ⟨q, hq, rfl⟩ := hp
        exact (h1 q.t (by rw [List.getLast?_map, hq]; rfl)).2
    have w2 : (waveOf td (sentOut tol z0 (rs ++ [r]))).vReflect tol a.t a.vin = .ok (launch tol z0 r.vin (r.iin z0)) := by
      unfold Wave.vReflect
      rw [e3, same]
      simp only [Rec.iin, hrdef]
      rw [launch_dn tol z0 _ _ hz]
    have push2 : d.fwd.push a.t (launch tol z0 r.vin (r.iin z0)) = waveOf td (sentIn tol z0 (rs ++ [r])) := by
      rw [hf, waveOf_push]
      simp [sentIn, hrdef]
    unfold Dev.accept
    simp only
    rw [w1]
    simp only
    rw [push1, w2]
    simp only
    refine ⟨_, rfl, ⟨push2, rfl, up', fi'⟩, rfl, rfl, r, rfl, rfl, rfl, rfl, ?_, ?_⟩
    · show r.vout - z0 * (r.vout / z0 - A / z0) = A
      field_simp; ring
    · show r.vin - z0 * (r.vin / z0 - B / z0) = B
      field_simp; ring

theorem attempts_spec (td tol z0 : F) (htd : 0 < td) (hz : z0 ≠ 0) (as : List (Att F)) (s : Dev F × List (Rec F)) (hs : Inv td tol z0 s)
    (hne : s.2 ≠ []) (hl : Legal td (s.2.map Rec.t) as) :
    ∃ s' new, Dev.attempts z0 tol as s = .ok s' ∧ Inv td tol z0 s' ∧ s'.2 = s.2 ++ new ∧
      new.map (fun r => (r.t, r.vin, r.vout)) = (as.filter (·.ok)).map (fun a => (a.t, a.vin, a.vout)) ∧
      ∀ pre r post, new = pre ++ r :: post → Char td tol z0 (s.2 ++ pre) r := by
  induction as generalizing s with
  | nil => exact ⟨s, [], rfl, hs, by simp, by simp, by simp⟩
  | cons a as ih =>
    obtain ⟨l1, l2, l3⟩ := hl
    obtain ⟨s1, e1, i1, -, -, c1⟩ := attempt_spec td tol z0 htd hz a s hs l1 (fun h => absurd h hne) (by simpa using l2)
    unfold Dev.attempts
    rw [e1]
    simp only
    cases ha : a.ok with
    | false =>
      rw [ha] at c1 l3
      simp only [Bool.false_eq_true, if_false] at c1 l3
      obtain ⟨s', new, e, i, q, m, c⟩ := ih s1 i1 (by rw [c1]; exact hne) (by rw [c1]; exact l3)
      refine ⟨s', new, e, i, by rw [q, c1], by rw [m]; simp [ha], by rw [← c1]; exact c⟩
    | true =>
      rw [ha] at c1 l3
      simp only [if_true] at c1 l3
      obtain ⟨r, c0, rt, rvi, rvo, cc⟩ := c1
      obtain ⟨s', new, e, i, q, m, c⟩ := ih s1 i1 (by rw [c0]; simp) (by rw [c0]; simpa [rt] using l3)
      refine ⟨s', r :: new, e, i, by rw [q, c0]; simp, by simp [ha, m, rt, rvi, rvo], ?_⟩
      intro pre x post hp
      cases pre with
      | nil =>
        simp only [List.nil_append, List.cons.injEq] at hp
        rw [← hp.1, List.append_nil]; exact cc
      | cons y pre =>
        simp only [List.cons_append, List.cons.injEq] at hp
        have := c pre x post hp.2
        rw [c0] at this
        rw [← hp.1]
        simpa using this

/-- **C68, transient.**  Whatever steps are attempted, and whichever of them are rejected, as long as each goes beyond the last
accepted one by no more than the line asked for and `td` is not the very first, the simulation goes through; and at every
accepted step what each port sees (`v - z0 i`) is what the other port sent (`v + z0 i`) a delay earlier, interpolated between
the accepted steps and zero before time 0. -/
theorem characteristics (td tol z0 vin0 vout0 : F) (htd : 0 < td) (hz : z0 ≠ 0) (as : List (Att F)) (hl : Legal td [0] as)
    (d : Dev F) (hd : d.fwd.delay = td ∧ d.refl.delay = td) :
    ∃ d' rs, d.run td z0 tol vin0 vout0 as = .ok (d', rs) ∧
      rs.map (fun r => (r.t, r.vin, r.vout)) = (0, vin0, vout0) :: (as.filter (·.ok)).map (fun a => (a.t, a.vin, a.vout)) ∧
      ∀ pre r post, rs = pre ++ r :: post → Char td tol z0 pre r := by
  have hb : Inv td tol z0 (d.begin td, []) := by
    refine ⟨?_, ?_, by simp, by simp⟩
    · simp [Dev.begin, waveOf, pushAll, sentIn, Wave.lineBegin, Wave.initialize, hd.1]
    · simp [Dev.begin, waveOf, pushAll, sentOut, Wave.lineBegin, Wave.initialize, hd.2]
  obtain ⟨s1, e1, i1, -, -, c1⟩ := attempt_spec td tol z0 htd hz ⟨0, vin0, vout0, true⟩ _ hb (by simp) (by simp) (by simp)
  simp only [if_true] at c1
  obtain ⟨r, c0, rt, rvi, rvo, cc⟩ := c1
  obtain ⟨s', new, e, i, q, m, c⟩ := attempts_spec td tol z0 htd hz as s1 i1 (by rw [c0]; simp) (by rw [c0]; simpa [rt] using hl)
  refine ⟨s'.1, s'.2, ?_, ?_, ?_⟩
  · unfold Dev.run Dev.attempts
    rw [e1]
    exact e
  · rw [q, c0]; simp [m, rt, rvi, rvo]
  · intro pre x post hp
    rw [q, c0] at hp
    simp only [List.nil_append, List.singleton_append] at hp
    cases pre with
    | nil =>
      simp only [List.nil_append, List.cons.injEq] at hp
      rw [← hp.1]; exact cc
    | cons y pre =>
      simp only [List.cons_append, List.cons.injEq] at hp
      have := c pre x post hp.2
      rw [c0] at this
      rw [← hp.1]
      simpa using this

/-- the waves launched are `v + z0 i`; anything dropped is noise -/
theorem launch_close (tol z0 v i : F) : launch tol z0 v i = v + z0 * i ∨ (launch tol z0 v i = 0 ∧ |v + z0 * i| < |v * 2 * tol|) := by
  unfold launch
  split
  · right; exact ⟨rfl, by assumption⟩
  · left; rfl

/-! ### a matched line is a delay -/

theorem rise_scale (k : F) (p : F × F) (r : List (F × F)) (x : F) :
    rise 0 (p.1, k * p.2) (r.map fun q => (q.1, k * q.2)) x = k * rise 0 p r x := by
  induction r generalizing p with
  | nil => simp [rise]
  | cons q r ih =>
    simp only [List.map_cons, rise]
    rw [ih q]
    ring

theorem arrives_scale (td k : F) (ps : List (F × F)) (t : F) :
    arrives td (ps.map fun q => (q.1, k * q.2)) t = k * arrives td ps t := by
  unfold arrives
  split
  · simp
  · cases ps with
    | nil => simp [polyline]
    | cons p r =>
      simp only [List.map_cons, polyline, zero_mul, add_zero]
      rw [rise_scale]
      ring

theorem arrives_zero (td : F) (ps : List (F × F)) (h : ∀ p ∈ ps, p.2 = 0) (t : F) : arrives td ps t = 0 := by
  have : ps = ps.map fun q => (q.1, 0 * q.2) := by
    conv_lhs => rw [← List.map_id ps]
    refine List.map_congr_left fun p hp => ?_
    simp only [id, zero_mul]
    rw [← h p hp]
  rw [this, arrives_scale, zero_mul]

/-- **C68, matched line.**  If OUT is loaded with `z0` at every accepted step, nothing comes back, IN looks like `z0`, and the
voltage at OUT is the voltage at IN a delay earlier. -/
theorem matched (td tol z0 vin0 vout0 : F) (htd : 0 < td) (hz : z0 ≠ 0) (htol : |tol| ≤ 1) (as : List (Att F)) (hl : Legal td [0] as)
    (d d' : Dev F) (hd : d.fwd.delay = td ∧ d.refl.delay = td) (rs : List (Rec F)) (hrun : d.run td z0 tol vin0 vout0 as = .ok (d', rs))
    (hm : ∀ r ∈ rs, r.vout = -(z0 * r.iout z0)) :
    ∀ pre r post, rs = pre ++ r :: post → r.vin = z0 * r.iin z0 ∧ r.vout = arrives td (pre.map fun q => (q.t, q.vin)) r.t := by
  obtain ⟨d₁, rs₁, e, -, hc⟩ := characteristics td tol z0 vin0 vout0 htd hz as hl d hd
  rw [hrun] at e
  obtain ⟨rfl, rfl⟩ : d' = d₁ ∧ rs = rs₁ := by simpa using e
  have h1 : ∀ pre r post, rs = pre ++ r :: post → r.vin = z0 * r.iin z0 := by
    intro pre r post hp
    have hz' : ∀ p ∈ sentOut tol z0 pre, p.2 = 0 := by
      intro p hp'
      obtain ⟨q, hq, rfl⟩ := List.mem_map.1 hp'
      have := hm q (by rw [hp]; simp [hq])
      simp only [launch]
      split
      · rfl
      · rw [this]; ring
    have := (hc pre r post hp).2
    rw [arrives_zero td _ hz'] at this
    linarith
  intro pre r post hp
  refine ⟨h1 pre r post hp, ?_⟩
  have hs : sentIn tol z0 pre = (pre.map fun q => (q.t, q.vin)).map fun q => (q.1, 2 * q.2) := by
    rw [sentIn, List.map_map]
    refine List.map_congr_left fun q hq => ?_
    obtain ⟨a, b, rfl⟩ := List.append_of_mem hq
    have e := h1 a q (b ++ r :: post) (by rw [hp]; simp)
    simp only [Function.comp, launch, ← e]
    rw [if_neg]
    · ring_nf
    · rw [not_lt, abs_mul (q.vin * 2) tol]
      have e2 : q.vin + q.vin = q.vin * 2 := by ring
      rw [e2]
      calc |q.vin * 2| * |tol| ≤ |q.vin * 2| * 1 := by gcongr
        _ = _ := mul_one _
  have := (hc pre r post hp).1
  rw [hs, arrives_scale] at this
  have hr := hm r (by rw [hp]; simp)
  linarith

/-! ### one step at a time: the exception, and lines shorter than a step -/

/-- **C68 fails for a first step that lands exactly on the delay**: an exception, whatever the voltages. -/
theorem first_step_at_delay (td tol z0 vin0 vout0 : F) (htd : 0 < td) (hz : z0 ≠ 0) (a : Att F) (ha : a.t = td) (as : List (Att F)) (d : Dev F)
    (hd : d.fwd.delay = td ∧ d.refl.delay = td) : d.run td z0 tol vin0 vout0 (a :: as) = .throw := by
  have hb : Inv td tol z0 (d.begin td, []) := by
    refine ⟨?_, ?_, by simp, by simp⟩
    · simp [Dev.begin, waveOf, pushAll, sentIn, Wave.lineBegin, Wave.initialize, hd.1]
    · simp [Dev.begin, waveOf, pushAll, sentOut, Wave.lineBegin, Wave.initialize, hd.2]
  obtain ⟨s1, e1, i1, -, -, c1⟩ := attempt_spec td tol z0 htd hz ⟨0, vin0, vout0, true⟩ _ hb (by simp) (by simp) (by simp)
  simp only [if_true, List.nil_append] at c1
  obtain ⟨r, c0, rt, -, -, -⟩ := c1
  unfold Dev.run Dev.attempts
  rw [e1]
  simp only
  unfold Dev.attempts Dev.attempt Dev.advance
  rw [ha, i1.fwd, c0]
  have : sentIn tol z0 [r] = [(0, launch tol z0 r.vin (r.iin z0))] := by simp [sentIn, rt]
  rw [this, wave_out_throws td htd]

/-- **C68 fails for a step longer than the line**: delay 1, `z0` 1, one step of 3 with the same voltages at both ports.  The
line is symmetrical and so are the voltages, but the waves launched at that step differ: IN is sent what depends on the wave
OUT sends at that very step. -/
theorem long_step_asymmetric :
    (Dev.fresh (1 : ℚ)).run 1 1 0 1 1 [⟨3, 5, 5, true⟩] = .ok (⟨⟨[(0, 0), (1, 0), (1, 2), (4, 4)], 1⟩,
      ⟨[(0, 0), (1, 0), (1, 2), (4, 8)], 1⟩, 2, 2, 0, 0⟩, [⟨0, 1, 1, 0, 0⟩, ⟨3, 5, 5, 2, 2⟩]) := by
  decide +kernel

/-- **C68 fails in a static analysis**: the line is empty, so its ends are not connected; an open end is at 0 whatever the
other end is. -/
theorem static_open_end (td tol z0 vin0 vout0 : F) (htd : 0 < td) (hz : z0 ≠ 0) (d : Dev F) (hd : d.fwd.delay = td ∧ d.refl.delay = td) :
    ∃ d' r, d.run td z0 tol vin0 vout0 [] = .ok (d', [r]) ∧ r.vin = vin0 ∧ r.vout = vout0 ∧ r.iin z0 = vin0 / z0 ∧
      (r.iout z0 = 0 → vout0 = 0) := by
  obtain ⟨d', rs, e, hm, hc⟩ := characteristics td tol z0 vin0 vout0 htd hz [] trivial d hd
  match rs, hm with
  | _ :: _ :: _, hm => simp at hm
  | [r], hm =>
    simp only [List.map_cons, List.map_nil, List.filter_nil, List.cons.injEq, Prod.mk.injEq, and_true] at hm
    obtain ⟨h1, h2, h3⟩ := hm
    have := hc [] r [] rfl
    simp only [Char, sentIn, sentOut, List.map_nil, arrives, h1, if_pos htd] at this
    refine ⟨d', r, e, h2, h3, ?_, ?_⟩
    · have h := this.2
      rw [h2] at h
      field_simp
      linarith
    · intro hi
      have h := this.1
      rw [hi, h3] at h
      linarith

/-- **C68 fails for a line without delay**: already the first solution is an exception. -/
theorem no_delay_throws (tol z0 vin0 vout0 : F) (as : List (Att F)) : (Dev.fresh (0 : F)).run 0 z0 tol vin0 vout0 as = .throw := by
  simp [Dev.run, Dev.attempts, Dev.attempt, Dev.advance, Dev.begin, Dev.fresh, Wave.lineBegin, Wave.initialize, Wave.push, Wave.vOut,
    interpolate, partitioned, upperBound]

/-- a step of 1, one rejected, another of 1/2, in a line of delay 1 and `z0` 2 that is matched at OUT -/
example : Legal (1 : ℚ) [0] [⟨1 / 2, 6, 0, true⟩, ⟨3 / 2, 9, 9, false⟩, ⟨5 / 4, 4, 4, true⟩] ∧
    (Dev.fresh (1 : ℚ)).run 1 2 0 3 0 [⟨1 / 2, 6, 0, true⟩, ⟨3 / 2, 9, 9, false⟩, ⟨5 / 4, 4, 9 / 2, true⟩] = .ok
      (⟨⟨[(0, 0), (1, 0), (1, 6), (3 / 2, 12), (9 / 4, 8)], 1⟩, ⟨[(0, 0), (1, 0), (1, 0), (3 / 2, 0), (9 / 4, 0)], 1⟩, 9 / 2, 0, 0, 0⟩,
        [⟨0, 3, 0, 0, 0⟩, ⟨1 / 2, 6, 0, 0, 0⟩, ⟨5 / 4, 4, 9 / 2, 0, 9 / 2⟩]) ∧
    (∀ r ∈ [(⟨0, 3, 0, 0, 0⟩ : Rec ℚ), ⟨1 / 2, 6, 0, 0, 0⟩, ⟨5 / 4, 4, 9 / 2, 0, 9 / 2⟩], r.vout = -(2 * r.iout 2)) ∧
    arrives 1 [(0, 3), (1 / 2, 6)] (5 / 4) = (9 / 2 : ℚ) := by
  refine ⟨by simp [Legal, review]; norm_num, ?_, ?_, ?_⟩ <;> decide +kernel

/-! ## loading -/

theorem bump_apply (n : ℕ) (x : F) (iv : ℕ → F) (k : ℕ) : bump n x iv k = iv k + x * inc n k := by
  unfold bump
  by_cases hn : n = 0
  · simp [hn, inc]
  · rw [if_pos hn]
    by_cases hk : k = n
    · subst hk; simp [vset, inc, hn]
    · simp [vset, inc, hk]

/-- what the line puts on the right side of row `k`, for sources `f` at OUT and `r` at IN -/
def rhs (n : Nodes) (mf f r : F) (k : ℕ) : F := mf * (f * (inc n.out1 k - inc n.out2 k) + r * (inc n.in1 k - inc n.in2 k))

theorem load_rhs (n : Nodes) (z0 mf tol : F) (b : Bool) (d : Dev F) (m : Loaded F) (iv : ℕ → F) (k : ℕ) :
    (d.load n z0 mf tol b m iv).2.2 k = iv k + rhs n mf (if b then Gnucap.Load.dnDiff tol d.if0 d.if1 else d.if0)
      (if b then Gnucap.Load.dnDiff tol d.ir0 d.ir1 else d.ir0) k := by
  unfold Dev.load
  simp only
  generalize (if b then Gnucap.Load.dnDiff tol d.if0 d.if1 else d.if0) = f
  generalize (if b then Gnucap.Load.dnDiff tol d.ir0 d.ir1 else d.ir0) = r
  unfold rhs
  by_cases hf : f = 0 <;> by_cases hr : r = 0 <;> simp [hf, hr, bump_apply] <;> ring

/-- **C68, loading.**  A full load makes each port a conductance `1/z0` with a current source, `mfactor` of them in parallel: for
any voltages, row `k` receives what flows out of node `k` into the line, the port currents being `v/z0 - source`. -/
theorem load_full (n : Nodes) (z0 mf tol : F) (d : Dev F) (m : Loaded F) (iv : ℕ → F) (N : ℕ)
    (hN : n.out1 ≤ N ∧ n.out2 ≤ N ∧ n.in1 ≤ N ∧ n.in2 ≤ N) (V : ℕ → F) (hV : V 0 = 0) (k : ℕ) :
    let l := d.load n z0 mf tol false m iv
    (∑ j ∈ Finset.range (N + 1), l.2.1.a k j * V j - l.2.2 k) - (∑ j ∈ Finset.range (N + 1), m.a k j * V j - iv k) =
      mf * ((inc n.out1 k - inc n.out2 k) * ((V n.out1 - V n.out2) / z0 - d.if0) +
        (inc n.in1 k - inc n.in2 k) * ((V n.in1 - V n.in2) / z0 - d.ir0)) := by
  have pick : ∀ p, p ≤ N → ∑ j ∈ Finset.range (N + 1), (inc p j : F) * V j = V p := by
    intro p hp
    by_cases h0 : p = 0
    · subst h0; simp [inc, hV]
    · rw [Finset.sum_eq_single p]
      · simp [inc, h0]
      · intro b _ hb; simp [inc, hb]
      · intro hb; exact absurd (Finset.mem_range.2 (by omega)) hb
  intro l
  have hi : l.2.2 k = iv k + rhs n mf d.if0 d.ir0 k := by
    have := load_rhs n z0 mf tol false d m iv k
    simpa using this
  have ha : ∀ j, l.2.1.a k j = m.a k j + mf / z0 * ((inc n.out1 k - inc n.out2 k) * (inc n.out1 j - inc n.out2 j)) +
      mf / z0 * ((inc n.in1 k - inc n.in2 k) * (inc n.in1 j - inc n.in2 j)) := by
    intro j
    show (loadSymmetric n.in1 n.in2 (mf / z0) (loadSymmetric n.out1 n.out2 (mf / z0) m)).a k j = _
    rw [loadSymmetric_stamp, loadSymmetric_stamp]
  have hsum : ∑ j ∈ Finset.range (N + 1), l.2.1.a k j * V j = ∑ j ∈ Finset.range (N + 1), m.a k j * V j +
      mf / z0 * (inc n.out1 k - inc n.out2 k) * (V n.out1 - V n.out2) + mf / z0 * (inc n.in1 k - inc n.in2 k) * (V n.in1 - V n.in2) := by
    rw [← pick n.out1 hN.1, ← pick n.out2 hN.2.1, ← pick n.in1 hN.2.2.1, ← pick n.in2 hN.2.2.2, ← Finset.sum_sub_distrib,
      ← Finset.sum_sub_distrib, Finset.mul_sum, Finset.mul_sum, ← Finset.sum_add_distrib, ← Finset.sum_add_distrib]
    refine Finset.sum_congr rfl fun j _ => ?_
    rw [ha j]; ring
  rw [hsum, hi]
  unfold rhs
  ring

/-- **C68, incremental loading.**  After a full load and any incremental loads at later source values (exact differences), the
right side holds the source values loaded last, and these are on record. -/
theorem load_incremental (n : Nodes) (z0 mf : F) (d : Dev F) (m : Loaded F) (iv : ℕ → F) (vs : List (F × F)) (k : ℕ) :
    let s := vs.foldl (fun (s : Dev F × Loaded F × (ℕ → F)) v => Dev.load n z0 mf 0 true { s.1 with if0 := v.1, ir0 := v.2 } s.2.1 s.2.2)
      (d.load n z0 mf 0 false m iv)
    s.2.2 k = iv k + rhs n mf s.1.if1 s.1.ir1 k ∧ (s.1.if1, s.1.ir1) = vs.getLast?.getD (d.if0, d.ir0) := by
  have dn : ∀ a b : F, Gnucap.Load.dnDiff 0 a b = a - b := by intro a b; simp [Gnucap.Load.dnDiff, Gnucap.Load.fixzero]
  induction vs using List.reverseRecOn with
  | nil =>
    refine ⟨?_, rfl⟩
    have := load_rhs n z0 mf 0 false d m iv k
    simpa [Dev.load] using this
  | append_singleton vs v ih =>
    simp only [List.foldl_append, List.foldl_cons, List.foldl_nil] at ih ⊢
    generalize (vs.foldl (fun (s : Dev F × Loaded F × (ℕ → F)) v => Dev.load n z0 mf 0 true { s.1 with if0 := v.1, ir0 := v.2 } s.2.1 s.2.2)
      (d.load n z0 mf 0 false m iv)) = s at ih ⊢
    refine ⟨?_, by simp [Dev.load]⟩
    rw [load_rhs]
    simp only [if_true, dn]
    rw [ih.1]
    show _ = iv k + rhs n mf v.1 v.2 k
    unfold rhs
    ring

/-- **C68, left out.**  What is not queued for loading differs from what is loaded by no more than the tolerances. -/
theorem not_queued (abstol reltol : F) (d : Dev F) (h : d.queued abstol reltol = false) :
    |d.if1 - d.if0| ≤ reltol / 100 * |d.if1| + abstol ∧ |d.ir1 - d.ir0| ≤ reltol / 100 * |d.ir1| + abstol := by
  simp only [Dev.queued, conchk, Bool.or_eq_false_iff, Bool.not_eq_false', decide_eq_true_eq] at h
  simpa [div_eq_mul_one_div reltol 100] using h

end Tran

/-! ## AC -/

/-- The tweaked length is never within the tolerance of a whole number of quarter waves, and off by no more than it. -/
theorem acLength_spec (freq td : ℝ) : |acLength freq td - freq * td * 4| ≤ linLenTol ∧ ∀ n : ℤ, linLenTol ≤ |acLength freq td - n| := by
  have ht : linLenTol = 1 / 1000000 := rfl
  unfold acLength
  simp only
  set x := freq * td * 4
  have f1 := Int.floor_le (x + 1 / 2)
  have f2 := Int.lt_floor_add_one (x + 1 / 2)
  set k := ⌊x + 1 / 2⌋ with hk
  have far : ∀ (y : ℝ) (n : ℤ), linLenTol ≤ |y - k| → |y - k| ≤ 1 / 2 → linLenTol ≤ |y - n| := by
    intro y n h1 h2
    by_cases hn : n = k
    · rw [hn]; exact h1
    · have : (1 : ℝ) ≤ |(k : ℝ) - n| := by
        have : (1 : ℤ) ≤ |k - n| := Int.one_le_abs (sub_ne_zero.2 (Ne.symm hn))
        exact_mod_cast this
      have h3 : |(k : ℝ) - n| ≤ |y - k| + |y - n| := by
        have : (k : ℝ) - n = -(y - k) + (y - n) := by ring
        rw [this]
        exact (abs_add_le _ _).trans (by rw [abs_neg])
      linarith
  split
  · rename_i h
    rw [abs_lt] at h
    split
    · rename_i hneg
      refine ⟨?_, fun n => far _ n ?_ ?_⟩
      · rw [abs_le]; constructor <;> linarith
      · rw [show (k : ℝ) - linLenTol - k = -linLenTol by ring, abs_neg]; exact le_abs_self _
      · rw [show (k : ℝ) - linLenTol - k = -linLenTol by ring, abs_neg, ht]; norm_num [abs_of_pos]
    · rename_i hpos
      refine ⟨?_, fun n => far _ n ?_ ?_⟩
      · rw [abs_le]; constructor <;> linarith
      · rw [show (k : ℝ) + linLenTol - k = linLenTol by ring]; exact le_abs_self _
      · rw [show (k : ℝ) + linLenTol - k = linLenTol by ring, ht]; norm_num [abs_of_pos]
  · rename_i h
    refine ⟨by simp [ht], fun n => far _ n (not_lt.1 h) ?_⟩
    rw [abs_le]; constructor <;> linarith

/-- so neither sine nor cosine of the angle is ever 0 -/
theorem angle_ok (freq td : ℝ) : Real.sin (acLength freq td * (Real.pi / 2)) ≠ 0 ∧ Real.cos (acLength freq td * (Real.pi / 2)) ≠ 0 := by
  have ht : 0 < linLenTol := by unfold linLenTol; norm_num
  have hs := (acLength_spec freq td).2
  constructor
  · rw [Real.sin_ne_zero_iff]
    intro n hn
    have : acLength freq td = ((2 * n : ℤ) : ℝ) := by
      have : acLength freq td / 2 * Real.pi = n * Real.pi := by rw [hn]; ring
      have := mul_right_cancel₀ Real.pi_ne_zero this
      push_cast; linarith
    have := hs (2 * n)
    rw [‹acLength freq td = _›] at this
    simp at this
    linarith
  · rw [Real.cos_ne_zero_iff]
    intro n hn
    have : acLength freq td = ((2 * n + 1 : ℤ) : ℝ) := by
      have : acLength freq td / 2 * Real.pi = (2 * n + 1) / 2 * Real.pi := by
        rw [show acLength freq td / 2 * Real.pi = acLength freq td * (Real.pi / 2) by ring, hn]; ring
      have := mul_right_cancel₀ Real.pi_ne_zero this
      push_cast; linarith
    have := hs (2 * n + 1)
    rw [‹acLength freq td = _›] at this
    simp at this
    linarith

/-- Specification: port voltages and currents of a lossless line of impedance `z0` and angle `θ`: a wave `a` from IN to OUT and a
wave `b` from OUT to IN -/
def Telegraph (z0 θ : ℝ) (v1 i1 v2 i2 : ℂ) : Prop :=
  ∃ a b : ℂ, v1 = a + b ∧ z0 * i1 = a - b ∧ v2 = a * Complex.exp (-(θ * Complex.I)) + b * Complex.exp (θ * Complex.I) ∧
    z0 * i2 = -(a * Complex.exp (-(θ * Complex.I)) - b * Complex.exp (θ * Complex.I))

/-- the angle the AC analysis uses -/
noncomputable def angle (freq td : ℝ) : ℝ := acLength freq td * (Real.pi / 2)

/-- it is the phase `2π f td` up to a millionth of a right angle -/
theorem angle_close (freq td : ℝ) : |angle freq td - 2 * Real.pi * freq * td| ≤ Real.pi / 2 * linLenTol := by
  have h := (acLength_spec freq td).1
  have hp := Real.pi_pos
  rw [show angle freq td - 2 * Real.pi * freq * td = Real.pi / 2 * (acLength freq td - freq * td * 4) by unfold angle; ring, abs_mul,
    abs_of_pos (by linarith : 0 < Real.pi / 2)]
  exact mul_le_mul_of_nonneg_left h (by linarith)

theorem y12_eq (z0 freq td : ℝ) : y12 z0 freq td = -Complex.I / (z0 * Complex.sin (angle freq td)) := by
  apply Complex.ext
  · have : ((z0 : ℂ) * Complex.sin (angle freq td)) = ((z0 * Real.sin (angle freq td) : ℝ) : ℂ) := by push_cast; rfl
    rw [this, Complex.div_ofReal_re]; simp [y12]
  · have : ((z0 : ℂ) * Complex.sin (angle freq td)) = ((z0 * Real.sin (angle freq td) : ℝ) : ℂ) := by push_cast; rfl
    rw [this, Complex.div_ofReal_im]; simp [y12, angle]

theorem y11_eq (z0 freq td : ℝ) : y11 z0 freq td = -Complex.I * Complex.cos (angle freq td) / (z0 * Complex.sin (angle freq td)) := by
  have e1 : ((z0 : ℂ) * Complex.sin (angle freq td)) = ((z0 * Real.sin (angle freq td) : ℝ) : ℂ) := by push_cast; rfl
  have e2 : -Complex.I * Complex.cos (angle freq td) = ((Real.cos (angle freq td) : ℝ) : ℂ) * (-Complex.I) := by push_cast; ring
  rw [e1, e2]
  apply Complex.ext
  · rw [Complex.div_ofReal_re, Complex.re_ofReal_mul]; simp [y11]
  · rw [Complex.div_ofReal_im, Complex.im_ofReal_mul]
    simp only [y11, Real.tan_eq_sin_div_cos, angle, Complex.neg_im, Complex.I_im]
    by_cases hz : z0 = 0
    · simp [hz]
    · have := angle_ok freq td
      have h1 := this.1; have h2 := this.2
      field_simp

/-- **C68, AC.**  With the admittances of `do_ac`, port currents and voltages are related exactly as in a lossless line of
impedance `z0` at the angle used, which is `2π f td` but for the tweak at whole quarter waves. -/
theorem ac_telegraph (z0 freq td : ℝ) (hz : z0 ≠ 0) (v1 i1 v2 i2 : ℂ) :
    (i1 = y11 z0 freq td * v1 - y12 z0 freq td * v2 ∧ i2 = y11 z0 freq td * v2 - y12 z0 freq td * v1) ↔
      Telegraph z0 (angle freq td) v1 i1 v2 i2 := by
  rw [y11_eq, y12_eq]
  have hs : Complex.sin (angle freq td) ≠ 0 := by
    have := (angle_ok freq td).1
    rw [← Complex.ofReal_sin]
    exact_mod_cast this
  have hz' : (z0 : ℂ) ≠ 0 := by exact_mod_cast hz
  unfold Telegraph
  have ep : Complex.exp (angle freq td * Complex.I) = Complex.cos (angle freq td) + Complex.sin (angle freq td) * Complex.I :=
    Complex.exp_mul_I _
  have em : Complex.exp (-(angle freq td * Complex.I)) = Complex.cos (angle freq td) - Complex.sin (angle freq td) * Complex.I := by
    rw [← neg_mul, Complex.exp_mul_I, Complex.cos_neg, Complex.sin_neg]; ring
  rw [ep, em]
  have cs := Complex.sin_sq_add_cos_sq (angle freq td)
  generalize Complex.sin (angle freq td) = s at *
  generalize Complex.cos (angle freq td) = c at *
  have hI := Complex.I_sq
  constructor
  · rintro ⟨rfl, rfl⟩
    refine ⟨(v1 + (-Complex.I * c * v1 + Complex.I * v2) / s) / 2, (v1 - (-Complex.I * c * v1 + Complex.I * v2) / s) / 2, by ring, ?_, ?_, ?_⟩
    · field_simp; ring
    · field_simp
      linear_combination (-2 * s * (c * v1 - v2)) * hI
    · field_simp
      linear_combination (-2 * Complex.I * v1) * cs
  · rintro ⟨a, b, rfl, h1, rfl, h2⟩
    constructor
    · have : i1 = (a - b) / z0 := by rw [← h1]; field_simp
      rw [this]
      field_simp
      linear_combination (a - b) * s * hI
    · have : i2 = -(a * (c - s * Complex.I) - b * (c + s * Complex.I)) / z0 := by rw [← h2]; field_simp
      rw [this]
      field_simp
      linear_combination (b * c - a * c) * s * hI + Complex.I * (a + b) * cs

/-- **C68, AC loading.**  What `ac_load` adds to row `k` is `mfactor` times what flows out of node `k` into the two ports. -/
theorem ac_load_rows (n : Nodes) (mf y11 y12 : ℂ) (m : Loaded ℂ) (N : ℕ) (hN : n.out1 ≤ N ∧ n.out2 ≤ N ∧ n.in1 ≤ N ∧ n.in2 ≤ N)
    (V : ℕ → ℂ) (hV : V 0 = 0) (k : ℕ) :
    ∑ j ∈ Finset.range (N + 1), (acLoad n mf y11 y12 m).a k j * V j - ∑ j ∈ Finset.range (N + 1), m.a k j * V j =
      mf * ((inc n.out1 k - inc n.out2 k) * (y11 * (V n.out1 - V n.out2) - y12 * (V n.in1 - V n.in2)) +
        (inc n.in1 k - inc n.in2 k) * (y11 * (V n.in1 - V n.in2) - y12 * (V n.out1 - V n.out2))) := by
  have pick : ∀ p, p ≤ N → ∑ j ∈ Finset.range (N + 1), (inc p j : ℂ) * V j = V p := by
    intro p hp
    by_cases h0 : p = 0
    · subst h0; simp [inc, hV]
    · rw [Finset.sum_eq_single p]
      · simp [inc, h0]
      · intro b _ hb; simp [inc, hb]
      · intro hb; exact absurd (Finset.mem_range.2 (by omega)) hb
  rw [← pick n.out1 hN.1, ← pick n.out2 hN.2.1, ← pick n.in1 hN.2.2.1, ← pick n.in2 hN.2.2.2, ← Finset.sum_sub_distrib,
    ← Finset.sum_sub_distrib, ← Finset.sum_sub_distrib, Finset.mul_sum, Finset.mul_sum, Finset.mul_sum, Finset.mul_sum,
    ← Finset.sum_sub_distrib, ← Finset.sum_sub_distrib, Finset.mul_sum, Finset.mul_sum, ← Finset.sum_add_distrib, Finset.mul_sum]
  refine Finset.sum_congr rfl fun j _ => ?_
  unfold acLoad
  rw [loadAsymmetric_stamp, loadAsymmetric_stamp, loadSymmetric_stamp, loadSymmetric_stamp]
  ring

/-- **C68, lossless.**  The line neither takes nor gives average power. -/
theorem ac_lossless (z0 freq td : ℝ) (v1 i1 v2 i2 : ℂ) (h1 : i1 = y11 z0 freq td * v1 - y12 z0 freq td * v2)
    (h2 : i2 = y11 z0 freq td * v2 - y12 z0 freq td * v1) :
    (v1 * (starRingEnd ℂ) i1 + v2 * (starRingEnd ℂ) i2).re = 0 := by
  subst h1 h2
  simp [y11, y12, Complex.mul_re, Complex.mul_im]
  ring

/-- **C68, matched line, AC.**  With `z0` at OUT the voltage there is that at IN, delayed by the angle, and IN looks like `z0`. -/
theorem ac_matched (z0 freq td : ℝ) (hz : z0 ≠ 0) (v1 i1 v2 i2 : ℂ) (h1 : i1 = y11 z0 freq td * v1 - y12 z0 freq td * v2)
    (h2 : i2 = y11 z0 freq td * v2 - y12 z0 freq td * v1) (hm : v2 = -(z0 * i2)) :
    v2 = v1 * Complex.exp (-(angle freq td * Complex.I)) ∧ v1 = z0 * i1 := by
  obtain ⟨a, b, e1, e2, e3, e4⟩ := (ac_telegraph z0 freq td hz v1 i1 v2 i2).1 ⟨h1, h2⟩
  have hb : b = 0 := by
    rw [e4, e3] at hm
    have : b * Complex.exp (angle freq td * Complex.I) = 0 := by linear_combination hm / 2
    exact (mul_eq_zero.1 this).resolve_right (Complex.exp_ne_zero _)
  subst hb
  rw [add_zero] at e1
  rw [sub_zero] at e2
  subst e1
  exact ⟨by rw [e3]; ring, e2.symm⟩

/-- a quarter wave line: length 1 is tweaked, a line of an eighth of a wave is not -/
example : acLength 1 (1 / 8) = 1 / 2 ∧ acLength 1 (1 / 4) = 1 + linLenTol := by
  have ht : linLenTol = 1 / 1000000 := rfl
  have f1 : ⌊(1 / 2 + 1 / 2 : ℝ)⌋ = 1 := by norm_num
  have f2 : ⌊(1 + 1 / 2 : ℝ)⌋ = 1 := by
    rw [Int.floor_eq_iff]; norm_num
  constructor
  · simp only [acLength, ht]
    rw [show (1 * (1 / 8) * 4 : ℝ) = 1 / 2 by norm_num, f1]
    norm_num [abs_of_neg]
  · simp only [acLength, ht]
    rw [show (1 * (1 / 4) * 4 : ℝ) = 1 by norm_num, f2]
    norm_num

/-! ## parameters -/

/-- **C68, parameters.**  Given inductance and capacitance per length only, the line has the delay and impedance that give these
back: `z0 * C * len = td`, `td * z0 = L * len`. -/
theorem from_lc (l c len : ℝ) (hl : 0 < l) (hc : 0 < c) :
    ∃ td, (Par.mk (some len) (some l) (some c) none none none none).realTd = some td ∧
      let z0 := (Par.mk (some len) (some l) (some c) none none none none).realZ0
      z0 * (c * len) = td ∧ z0 * td = l * len := by
  refine ⟨_, rfl, ?_, ?_⟩
  · simp only [Par.realZ0, Option.getD_some]
    rw [show l * c = l / c * c ^ 2 by field_simp, Real.sqrt_mul (by positivity), Real.sqrt_sq hc.le]; ring
  · simp only [Par.realZ0, Option.getD_some]
    rw [show Real.sqrt (l / c) * (len * Real.sqrt (l * c)) = len * (Real.sqrt (l / c) * Real.sqrt (l * c)) by ring, ← Real.sqrt_mul (by positivity),
      show l / c * (l * c) = l ^ 2 by field_simp, Real.sqrt_sq hl.le]; ring

/-- Given a frequency and a length in waves, a wave of that frequency is that long on the line; a quarter wave if no length is given. -/
theorem from_frequency (p : Par) (f : ℝ) (hf : f ≠ 0) (h1 : p.td = none) (h2 : p.f = some f) :
    ∃ td, p.realTd = some td ∧ f * td = p.len.getD 1 * p.nl.getD (1 / 4) := by
  refine ⟨_, by simp only [Par.realTd, h1, h2]; rfl, ?_⟩
  field_simp

/-- A delay given is the delay, whatever else is. -/
theorem from_delay (p : Par) (td : ℝ) (h : p.td = some td) : p.realTd = some (p.len.getD 1 * td) := by simp [Par.realTd, h]

example : (Par.mk (some 3) (some 4) (some 1) none none none none).realZ0 = 2 := by
  simp only [Par.realZ0]
  rw [show (4 / 1 : ℝ) = 2 ^ 2 by norm_num, Real.sqrt_sq (by norm_num)]

end Gnucap.Tline
