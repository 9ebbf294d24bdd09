import Verif.TransLemmas
import Mathlib.Data.List.Perm.Basic
import Mathlib.Data.List.Sort

/-! # Invariants of the transient sweep -/
namespace Gnucap.Trans

variable {c : Cfg}

/-! ## event queue -/

theorem mem_push {t x : ℚ} {q : List ℚ} : x ∈ push t q ↔ x = t ∨ x ∈ q := by
  induction q with
  | nil => simp [push]
  | cons y q ih =>
    unfold push
    split
    · simp
    · simp [ih]; tauto

theorem push_perm (t : ℚ) (q : List ℚ) : (push t q).Perm (t :: q) := by
  induction q with
  | nil => exact List.Perm.refl _
  | cons y q ih =>
    unfold push
    split
    · exact List.Perm.refl _
    · exact (List.Perm.cons y ih).trans (List.Perm.swap t y q)

theorem push_sorted {t : ℚ} {q : List ℚ} (h : q.Pairwise (· ≤ ·)) : (push t q).Pairwise (· ≤ ·) := by
  induction q with
  | nil => simp [push]
  | cons y q ih =>
    unfold push
    split
    · rename_i hle
      refine List.Pairwise.cons ?_ h
      intro z hz
      rcases List.mem_cons.mp hz with rfl | hz
      · exact hle
      · exact le_trans hle (List.rel_of_pairwise_cons h hz)
    · rename_i hle
      refine List.Pairwise.cons ?_ (ih h.of_cons)
      intro z hz
      rcases mem_push.mp hz with rfl | hz
      · exact le_of_lt (not_le.mp hle)
      · exact List.rel_of_pairwise_cons h hz

/-- the queue after a list of requests -/
def queued (D time0 : ℚ) (ts : List ℚ) (q : List ℚ) : List ℚ := ts.foldl (fun q t => push (eventTime D time0 t) q) q

theorem fileAll_eq (ts : List ℚ) (s : St) : fileAll c ts s =
    { s with eq := queued c.dtmin s.time0 ts s.eq, filed := (ts.map (eventTime c.dtmin s.time0)).reverse ++ s.filed } := by
  induction ts generalizing s with
  | nil => rfl
  | cons t ts ih =>
    have : fileAll c (t :: ts) s = fileAll c ts { s with eq := (newEvent c.dtmin s.time0 t s.eq).1, filed := (newEvent c.dtmin s.time0 t s.eq).2 :: s.filed } := rfl
    rw [this, ih]
    simp [newEvent, queued]

theorem mem_queued {D time0 x : ℚ} {ts q : List ℚ} : x ∈ queued D time0 ts q ↔ x ∈ q ∨ ∃ t ∈ ts, x = eventTime D time0 t := by
  induction ts generalizing q with
  | nil => simp [queued]
  | cons t ts ih =>
    have : queued D time0 (t :: ts) q = queued D time0 ts (push (eventTime D time0 t) q) := rfl
    rw [this, ih, mem_push]
    simp only [List.mem_cons, exists_eq_or_imp]
    tauto

theorem queued_sorted {D time0 : ℚ} {ts q : List ℚ} (h : q.Pairwise (· ≤ ·)) : (queued D time0 ts q).Pairwise (· ≤ ·) := by
  induction ts generalizing q with
  | nil => exact h
  | cons t ts ih => exact ih (push_sorted h)

theorem eventTime_ge {D time0 t : ℚ} (hD : 0 < D) {n : ℤ} (hn : time0 = n * D) (h : time0 ≤ t) :
    n ≤ tick D (eventTime D time0 t) := by
  apply le_tick hD
  unfold eventTime
  rw [if_neg (not_le.mpr hD)]
  have hq : (n : ℚ) ≤ t / D := by rw [le_div_iff₀ hD]; linarith
  split
  · apply mul_le_mul_of_nonneg_right _ hD.le
    exact le_trans hq (Int.le_ceil _)
  · apply mul_le_mul_of_nonneg_right _ hD.le
    exact_mod_cast le_rnd hq

theorem eventTime_gt {D time0 t : ℚ} (hD : 0 < D) {n : ℤ} (hn : time0 = n * D) (h : time0 < t) :
    n < tick D (eventTime D time0 t) := by
  have : n + 1 ≤ tick D (eventTime D time0 t) := by
    apply le_tick hD
    unfold eventTime
    rw [if_neg (not_le.mpr hD)]
    have hq : (n : ℚ) < t / D := by rw [lt_div_iff₀ hD]; linarith
    split
    · apply mul_le_mul_of_nonneg_right _ hD.le
      have : n < ⌈t / D⌉ := by rw [Int.lt_ceil]; exact hq
      exact_mod_cast this
    · rename_i hgt
      apply mul_le_mul_of_nonneg_right _ hD.le
      have : ((n + 1 : ℤ) : ℚ) ≤ t / D := by
        rw [le_div_iff₀ hD]; push_cast; linarith [not_le.mp hgt]
      exact_mod_cast le_rnd this
  omega

theorem popPast_sublist (D time0 : ℚ) (q : List ℚ) : (popPast D time0 q).Sublist q := by
  induction q with
  | nil => exact List.Sublist.refl _
  | cons e q ih =>
    unfold popPast
    split
    · exact List.Sublist.cons _ ih
    · exact List.Sublist.refl _

theorem popPast_gt {D time0 : ℚ} (hD : 0 < D) {q : List ℚ} (h : q.Pairwise (· ≤ ·)) :
    ∀ t ∈ popPast D time0 q, tick D time0 < tick D t := by
  induction q with
  | nil => intro t ht; cases ht
  | cons e q ih =>
    unfold popPast
    split
    · exact ih h.of_cons
    · rename_i hle
      intro t ht
      rcases List.mem_cons.mp ht with rfl | ht
      · omega
      · have := tick_mono hD (List.rel_of_pairwise_cons h ht); omega

theorem popPast_lost {D time0 : ℚ} {q : List ℚ} {t : ℚ} (ht : t ∈ q) : t ∈ popPast D time0 q ∨ tick D t ≤ tick D time0 := by
  induction q with
  | nil => cases ht
  | cons e q ih =>
    unfold popPast
    split
    · rename_i hle
      rcases List.mem_cons.mp ht with rfl | ht
      · exact Or.inr hle
      · exact ih ht
    · exact Or.inl ht

/-! ## review -/

/-- what review leaves, in ticks -/
theorem review_spec (hD : 0 < c.dtmin) (ev er : ℚ) (s : St) {n0 n1 : ℤ} (h0 : s.time0 = n0 * c.dtmin) (h1 : s.time1 = n1 * c.dtmin) :
    let r := review c ev er s
    n1 < tick c.dtmin r.1.amb ∧ n1 < tick c.dtmin r.1.err ∧
    (r.2 = true → n0 < tick c.dtmin r.1.amb ∧ n0 < tick c.dtmin r.1.err) ∧
    (r.2 = false → tick c.dtmin r.1.amb < n0 ∨ tick c.dtmin r.1.err < n0) := by
  intro r
  have hr : r = review c ev er s := rfl
  unfold review at hr
  simp only at hr
  generalize hD' : c.dtmin = D at *
  generalize ha0 : (if ev < s.time1 + 2 * D then s.time1 + 2 * D else ev) = a0 at hr
  generalize he0 : (if er < s.time1 + 2 * D then s.time1 + 2 * D else er) = e0 at hr
  have a0ge : s.time1 + 2 * D ≤ a0 := by rw [← ha0]; split <;> linarith
  have e0ge : s.time1 + 2 * D ≤ e0 := by rw [← he0]; split <;> linarith
  generalize ha : (if s.time0 - 2 * D ≤ a0 ∧ a0 ≤ s.time0 + 2 * D then s.time0 + 2 * D else a0) = a at hr
  generalize he : (if s.time0 - 11/10 * D ≤ e0 ∧ e0 ≤ s.time0 + 11/10 * D then s.time0 + 11/10 * D else e0) = e at hr
  have ramb : r.1.amb = a := by rw [hr]
  have rerr : r.1.err = e := by rw [hr]
  have racc : r.2 = (decide (s.time0 < e) && decide (s.time0 < a)) := by rw [hr]
  have age : s.time1 + 2 * D ≤ a := by
    rw [← ha]; split
    · rename_i h; linarith [h.2]
    · exact a0ge
  have ege : s.time1 + 2 * D ≤ e := by
    rw [← he]; split
    · rename_i h; linarith [h.2]
    · exact e0ge
  have acl : a < s.time0 - 2 * D ∨ s.time0 + 2 * D ≤ a := by
    rw [← ha]; split
    · right; exact le_refl _
    · rename_i h
      rw [not_and_or, not_le, not_le] at h
      rcases h with h | h
      · left; exact h
      · right; exact h.le
  have ecl : e < s.time0 - 11/10 * D ∨ s.time0 + 11/10 * D ≤ e := by
    rw [← he]; split
    · right; exact le_refl _
    · rename_i h
      rw [not_and_or, not_le, not_le] at h
      rcases h with h | h
      · left; exact h
      · right; exact h.le
  rw [ramb, rerr, racc]
  have q1 : n1 + 1 ≤ tick D a := le_tick hD (by push_cast; linarith)
  have q2 : n1 + 1 ≤ tick D e := le_tick hD (by push_cast; linarith)
  refine ⟨by omega, by omega, ?_, ?_⟩
  · intro h
    simp only [Bool.and_eq_true, decide_eq_true_eq] at h
    have p1 : n0 + 1 ≤ tick D a := le_tick hD (by push_cast; rcases acl with q | q <;> linarith)
    have p2 : n0 + 1 ≤ tick D e := le_tick hD (by push_cast; rcases ecl with q | q <;> linarith)
    exact ⟨by omega, by omega⟩
  · intro h
    simp only [Bool.and_eq_false_iff, decide_eq_false_iff_not, not_lt] at h
    rcases h with h | h
    · right
      apply tick_lt hD
      rcases ecl with q | q <;> linarith
    · left
      apply tick_lt hD
      rcases acl with q | q <;> linarith

/-! ## the invariant before `next` and after it -/

/-- before `next` -/
structure Ready (c : Cfg) (s : St) : Prop where
  g0 : s.time0 = tick c.dtmin s.time0 * c.dtmin
  g1 : s.time1 = tick c.dtmin s.time1 * c.dtmin
  ord : tick c.dtmin s.time1 ≤ tick c.dtmin s.time0
  sorted : s.eq.Pairwise (· ≤ ·)
  ac : s.accepted = true → (∀ t ∈ s.eq, tick c.dtmin s.time0 < tick c.dtmin t) ∧ tick c.dtmin s.time0 < tick c.dtmin s.user ∧
    tick c.dtmin s.time0 < tick c.dtmin s.amb ∧ tick c.dtmin s.time0 < tick c.dtmin s.err ∧
    (s.converged = true ∨ tick c.dtmin s.time1 = tick c.dtmin s.time0)
  rj : s.accepted = false → tick c.dtmin s.time1 < tick c.dtmin s.time0 ∧ (∀ t ∈ s.eq, tick c.dtmin s.time1 < tick c.dtmin t) ∧
    tick c.dtmin s.time1 < tick c.dtmin s.amb ∧ tick c.dtmin s.time1 < tick c.dtmin s.err ∧
    tick c.dtmin s.time0 ≤ tick c.dtmin s.user ∧
    (s.converged = true → tick c.dtmin s.amb < tick c.dtmin s.time0 ∨ tick c.dtmin s.err < tick c.dtmin s.time0) ∧
    (s.converged = false → tick c.dtmin s.time1 + 2 ≤ tick c.dtmin s.time0)

/-- after `next` -/
structure Mid (c : Cfg) (s : St) : Prop where
  g0 : s.time0 = tick c.dtmin s.time0 * c.dtmin
  g1 : s.time1 = tick c.dtmin s.time1 * c.dtmin
  lt : tick c.dtmin s.time1 < tick c.dtmin s.time0
  sorted : s.eq.Pairwise (· ≤ ·)
  evs : ∀ t ∈ s.eq, tick c.dtmin s.time0 ≤ tick c.dtmin t
  amb : tick c.dtmin s.time1 < tick c.dtmin s.amb
  err : tick c.dtmin s.time1 < tick c.dtmin s.err
  user : tick c.dtmin s.time0 ≤ tick c.dtmin s.user
  ctl : s.control = 1 ↔ tick c.dtmin s.time0 = tick c.dtmin s.user

/-- the time point from which the next step starts: the last accepted one -/
def refTick (c : Cfg) (s : St) : ℤ := if s.accepted then tick c.dtmin s.time0 else tick c.dtmin s.time1

theorem next_mid (h : Sane c) {s : St} (r : Ready c s) : ∃ s' b, next c s = some (s', b) ∧ Mid c s' ∧
    (∃ t1 t0 k, s' = { s with time1 := t1, time0 := t0, control := k }) ∧
    tick c.dtmin s'.time1 = refTick c s ∧
    (s.accepted = false → tick c.dtmin s'.time0 < tick c.dtmin s.time0) ∧
    (b = true ↔ tick c.dtmin s'.time0 ≤ tick c.dtmin (c.tstop + c.dtmin)) := by
  have hD := h.dtmin
  generalize href : refTick c s = ref
  have facts : (∀ t ∈ s.eq, ref < tick c.dtmin t) ∧ ref < tick c.dtmin s.user ∧ ref < tick c.dtmin s.amb ∧ ref < tick c.dtmin s.err ∧
      (tick c.dtmin s.time0 - tick c.dtmin s.time1 = 0 → ref = tick c.dtmin s.time0) ∧
      (0 < tick c.dtmin s.time0 - tick c.dtmin s.time1 → s.converged = false → 2 ≤ tick c.dtmin s.time0 - tick c.dtmin s.time1) := by
    unfold refTick at href
    cases hac : s.accepted with
    | true =>
      rw [hac, if_pos rfl] at href
      have := r.ac hac
      rw [← href]
      refine ⟨this.1, this.2.1, this.2.2.1, this.2.2.2.1, fun _ => rfl, fun hp hc => ?_⟩
      rcases this.2.2.2.2 with q | q
      · rw [q] at hc; cases hc
      · omega
    | false =>
      rw [hac] at href
      simp only [Bool.false_eq_true, if_false] at href
      have := r.rj hac
      rw [← href]
      exact ⟨this.2.1, by omega, this.2.2.1, this.2.2.2.1, by omega, fun _ hc => by have := this.2.2.2.2.2.2 hc; omega⟩
  obtain ⟨fe, fu, fa, fr, f0, fc⟩ := facts
  have hold : 0 ≤ tick c.dtmin s.time0 - tick c.dtmin s.time1 := by have := r.ord; omega
  have gF := good_fixed fu fe
  have gA := good_almost fu fe fa
  have gS := good_skip h fu fe fa fr
  have gL := good_limit (s := s) h gS.1 f0 fc hold
  generalize hL : candLimit c s ref (tick c.dtmin s.time0) (tick c.dtmin s.time0 - tick c.dtmin s.time1) (candSkip c s ref) = a at gL
  have hfu := fixed_le_user c s ref
  have hb : s.accepted = false → a.newtime < tick c.dtmin s.time0 := by
    intro hac
    have hr1 : ref = tick c.dtmin s.time1 := by rw [← href]; simp [refTick, hac]
    have := r.rj hac
    cases hcv : s.converged with
    | true =>
      rcases this.2.2.2.2.2.1 hcv with q | q
      · have := gA.2; omega
      · have := gS.2.2; omega
    | false =>
      have := gL.2.2 (by omega) hcv
      omega
  have hb' : ref = tick c.dtmin s.time0 ∨ a.newtime < tick c.dtmin s.time0 := by
    cases hac : s.accepted with
    | true => left; rw [← href]; simp [refTick, hac]
    | false => right; exact hb hac
  obtain ⟨b, hbs, gB, bal, bsame⟩ := good_smooth (c := c) (s := s) hD (fixed := (candFixed c s ref).newtime)
    (almost := (candAlmost c s ref).newtime) (old := tick c.dtmin s.time0 - tick c.dtmin s.time1) gL.1
    (by have := gS.2.1; omega) (by rw [gA.2]; omega) hfu hold hb'
  have gp := gB.pos
  have gs := gB.shape
  have hbne : b.newtime ≠ tick c.dtmin s.time0 := by
    cases hac : s.accepted with
    | true =>
      have : ref = tick c.dtmin s.time0 := by rw [← href]; simp [refTick, hac]
      omega
    | false =>
      have h1 := hb hac
      rw [bsame h1]; omega
  have ht1 : trapSmall c ref b = b := by unfold trapSmall; rw [tick_one hD, if_neg (by omega)]
  have ht2 : trapZero c (tick c.dtmin s.time0) b = b := by unfold trapZero; rw [if_neg hbne]
  have hn : next c s = some ({ s with time1 := toDouble c.dtmin ref, time0 := toDouble c.dtmin b.newtime, control := if b.newtime < tick c.dtmin s.time0 then b.control + 10 else b.control },
      decide (b.newtime ≤ tick c.dtmin (c.tstop + c.dtmin))) := by
    unfold next
    have e : (if s.accepted then tick c.dtmin s.time0 else tick c.dtmin s.time1) = ref := href
    simp only [e, hL, hbs, ht1, ht2]
  have tg : ∀ n : ℤ, tick c.dtmin (toDouble c.dtmin n) = n := fun n => tick_grid hD n
  refine ⟨_, _, hn, ?_, ⟨_, _, _, rfl⟩, tg ref, ?_, ?_⟩
  · refine ⟨?_, ?_, ?_, r.sorted, ?_, ?_, ?_, ?_, ?_⟩
    · show toDouble c.dtmin b.newtime = tick c.dtmin (toDouble c.dtmin b.newtime) * c.dtmin
      rw [tg]; rfl
    · show toDouble c.dtmin ref = tick c.dtmin (toDouble c.dtmin ref) * c.dtmin
      rw [tg]; rfl
    · show tick c.dtmin (toDouble c.dtmin ref) < tick c.dtmin (toDouble c.dtmin b.newtime)
      rw [tg, tg]; omega
    · intro t ht
      show tick c.dtmin (toDouble c.dtmin b.newtime) ≤ _
      rw [tg]
      have := fixed_le_event hD r.sorted ref t ht
      have := gA.2
      omega
    · show tick c.dtmin (toDouble c.dtmin ref) < _
      rw [tg]; exact fa
    · show tick c.dtmin (toDouble c.dtmin ref) < _
      rw [tg]; exact fr
    · show tick c.dtmin (toDouble c.dtmin b.newtime) ≤ _
      rw [tg]; exact gB.le
    · show (if b.newtime < tick c.dtmin s.time0 then b.control + 10 else b.control) = 1 ↔
        tick c.dtmin (toDouble c.dtmin b.newtime) = tick c.dtmin s.user
      rw [tg]
      by_cases hlt : b.newtime < tick c.dtmin s.time0
      · rw [if_pos hlt]
        have hge : tick c.dtmin s.time0 ≤ tick c.dtmin s.user := by
          cases hac : s.accepted with
          | true => have := (r.ac hac).2.1; omega
          | false => exact (r.rj hac).2.2.2.2.1
        constructor
        · intro h; omega
        · intro h; omega
      · rw [if_neg hlt]; exact gB.ctl
  · intro hac
    show tick c.dtmin (toDouble c.dtmin b.newtime) < _
    rw [tg]
    have h1 := hb hac
    rw [bsame h1]; exact h1
  · show decide _ = true ↔ tick c.dtmin (toDouble c.dtmin b.newtime) ≤ _
    rw [tg, decide_eq_true_iff]

/-- devices do not ask for events in the past, and a step of one tick does not fail to converge -/
def Polite1 (c : Cfg) (e : Env) (s : St) : Prop :=
  (∀ t ∈ e.evalEvents, s.time0 ≤ t) ∧ (∀ t ∈ e.acceptEvents, s.time0 < t) ∧ (e.conv = false → s.time1 + 2 * c.dtmin ≤ s.time0)

theorem body_cases (e : Env) (s : St) :
    let q := queued c.dtmin s.time0 e.evalEvents s.eq
    let f := (e.evalEvents.map (eventTime c.dtmin s.time0)).reverse ++ s.filed
    let s1 : St := { s with eq := q, filed := f, converged := e.conv, exceeds := e.exceeds }
    let r := review c e.ev e.er s1
    (e.conv = true ∧ r.2 = true ∧ body c e s =
      { s1 with amb := r.1.amb, err := r.1.err, accepted := true, accepts := s.time0 :: s.accepts,
                eq := queued c.dtmin s.time0 e.acceptEvents (popPast c.dtmin s.time0 q),
                filed := (e.acceptEvents.map (eventTime c.dtmin s.time0)).reverse ++ f,
                user := if s.control = 1 then s.user + c.tstrobe else s.user,
                strobes := if s.control = 1 then s.time0 :: s.strobes else s.strobes }) ∨
    (e.conv = true ∧ r.2 = false ∧ body c e s = { s1 with amb := r.1.amb, err := r.1.err, accepted := false }) ∨
    (e.conv = false ∧ body c e s = { s1 with accepted := false }) := by
  intro q f s1 r
  have hs1 : ({ fileAll c e.evalEvents s with converged := e.conv, exceeds := e.exceeds } : St) = s1 := by
    rw [fileAll_eq]
  have hr1 : r.1 = { s1 with amb := r.1.amb, err := r.1.err } := rfl
  have hb : body c e s = if e.conv then (if r.2 then
      (if (accept c e.acceptEvents { r.1 with accepted := true }).control = 1 then
        { accept c e.acceptEvents { r.1 with accepted := true } with user := (accept c e.acceptEvents { r.1 with accepted := true }).user + c.tstrobe, strobes := (accept c e.acceptEvents { r.1 with accepted := true }).time0 :: (accept c e.acceptEvents { r.1 with accepted := true }).strobes }
       else accept c e.acceptEvents { r.1 with accepted := true }) else { r.1 with accepted := false })
      else { s1 with accepted := false } := by
    show (if e.conv then _ else _) = _
    rw [hs1]
  rcases hc : e.conv with _ | _
  · right; right; refine ⟨rfl, ?_⟩; rw [hb, hc]; rfl
  rcases hr : r.2 with _ | _
  · right; left; refine ⟨rfl, rfl, ?_⟩
    rw [hb, hc, hr, hr1]; simp only [if_true, Bool.false_eq_true, if_false]
  · left; refine ⟨rfl, rfl, ?_⟩
    have ha : accept c e.acceptEvents { r.1 with accepted := true } = { s1 with amb := r.1.amb, err := r.1.err, accepted := true, accepts := s.time0 :: s.accepts, eq := queued c.dtmin s.time0 e.acceptEvents (popPast c.dtmin s.time0 q), filed := (e.acceptEvents.map (eventTime c.dtmin s.time0)).reverse ++ f } := by
      unfold accept; rw [fileAll_eq]; rfl
    rw [hb, hc, hr, ha]; simp only [if_true]
    split <;> rfl

theorem body_ready (h : Sane c) {e : Env} {s : St} (m : Mid c s) (p : Polite1 c e s) : Ready c (body c e s) := by
  have hD := h.dtmin
  obtain ⟨p1, p2, p3⟩ := p
  have hq : ∀ t ∈ queued c.dtmin s.time0 e.evalEvents s.eq, tick c.dtmin s.time0 ≤ tick c.dtmin t := by
    intro t ht
    rcases mem_queued.mp ht with q | ⟨t', ht', rfl⟩
    · exact m.evs t q
    · exact eventTime_ge hD m.g0 (p1 t' ht')
  have hqs : (queued c.dtmin s.time0 e.evalEvents s.eq).Pairwise (· ≤ ·) := queued_sorted m.sorted
  have hu := m.user
  have hlt := m.lt
  rcases body_cases (c := c) e s with ⟨hc, hr, hb⟩ | ⟨hc, hr, hb⟩ | ⟨hc, hb⟩
  · have rs := review_spec hD e.ev e.er { s with eq := queued c.dtmin s.time0 e.evalEvents s.eq, filed := (e.evalEvents.map (eventTime c.dtmin s.time0)).reverse ++ s.filed, converged := e.conv, exceeds := e.exceeds } m.g0 m.g1
    have rr := rs.2.2.1 hr
    rw [hb]
    refine ⟨m.g0, m.g1, hlt.le, queued_sorted (hqs.sublist (popPast_sublist _ _ _)), fun _ => ⟨?_, ?_, rr.1, rr.2, Or.inl hc⟩, fun h => by cases h⟩
    · intro t ht
      rcases mem_queued.mp ht with q | ⟨t', ht', rfl⟩
      · exact popPast_gt hD hqs t q
      · exact eventTime_gt hD m.g0 (p2 t' ht')
    · show tick c.dtmin s.time0 < tick c.dtmin (if s.control = 1 then s.user + c.tstrobe else s.user)
      by_cases hctl : s.control = 1
      · rw [if_pos hctl, m.ctl.mp hctl]
        have := tick_add hD s.user h.strobe
        omega
      · rw [if_neg hctl]
        have : tick c.dtmin s.time0 ≠ tick c.dtmin s.user := fun hh => hctl (m.ctl.mpr hh)
        omega
  · have rs := review_spec hD e.ev e.er { s with eq := queued c.dtmin s.time0 e.evalEvents s.eq, filed := (e.evalEvents.map (eventTime c.dtmin s.time0)).reverse ++ s.filed, converged := e.conv, exceeds := e.exceeds } m.g0 m.g1
    have rr := rs.2.2.2 hr
    rw [hb]
    refine ⟨m.g0, m.g1, hlt.le, hqs, (fun h => by cases h), fun _ => ⟨hlt, ?_, rs.1, rs.2.1, hu, fun _ => rr, ?_⟩⟩
    · intro t ht
      have := hq t ht
      show tick c.dtmin s.time1 < _
      omega
    · intro hcv
      have : e.conv = false := hcv
      rw [hc] at this; cases this
  · rw [hb]
    refine ⟨m.g0, m.g1, hlt.le, hqs, (fun h => by cases h), fun _ => ⟨hlt, ?_, m.amb, m.err, hu, ?_, ?_⟩⟩
    · intro t ht
      have := hq t ht
      show tick c.dtmin s.time1 < _
      omega
    · intro hcv
      have : e.conv = true := hcv
      rw [hc] at this; cases this
    · intro _
      have := p3 hc
      show tick c.dtmin s.time1 + 2 ≤ tick c.dtmin s.time0
      apply le_tick hD
      push_cast
      have := m.g1
      linarith

end Gnucap.Trans
