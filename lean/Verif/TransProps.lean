import Verif.TransInv
import Mathlib.Algebra.Order.Field.Basic

/-!
# Transient sweep: time points, events, strobes (C16 - C20)

The statements speak about what a run logs: the accepted times, the output ("strobe") times and the events filed.  `Env` is
the environment of one step (convergence, reviews, event requests) and is arbitrary unless said otherwise.
-/
namespace Gnucap.Trans

variable {c : Cfg}

/-- `s` is the state of the sweep, still going on or over. -/
def Reaches (c : Cfg) (es : List Env) (s0 s : St) : Prop := run c es s0 = .running s ∨ run c es s0 = .ended s

/-! ## C16: accepted times strictly increase, unconditionally -/

/-- for every state: the step is at least one tick from the last accepted point -/
theorem next_min_step (hD : 0 < c.dtmin) {s s' : St} {b : Bool} (ho : tick c.dtmin s.time1 ≤ tick c.dtmin s.time0)
    (hn : next c s = some (s', b)) :
    tick c.dtmin s'.time1 = refTick c s ∧ s'.time0 = tick c.dtmin s'.time0 * c.dtmin ∧ refTick c s + 1 ≤ tick c.dtmin s'.time0 ∧
      s'.time1 = refTick c s * c.dtmin ∧
      (∃ t1 t0 k, s' = { s with time1 := t1, time0 := t0, control := k }) := by
  have tg : ∀ n : ℤ, tick c.dtmin (toDouble c.dtmin n) = n := fun n => tick_grid hD n
  unfold next at hn
  simp only at hn
  rw [show (if s.accepted then tick c.dtmin s.time0 else tick c.dtmin s.time1) = refTick c s from rfl] at hn
  have hr : refTick c s ≤ tick c.dtmin s.time0 := by unfold refTick; split <;> omega
  have h0 : tick c.dtmin s.time0 - tick c.dtmin s.time1 = 0 → refTick c s = tick c.dtmin s.time0 := by
    unfold refTick; split <;> omega
  generalize refTick c s = ref at *
  split at hn
  · cases hn
  · rename_i a ha
    have sh := shape_smooth (shape_limit c s ref _ _ _ (shape_skip c s ref) h0) ha
    have key : ref + 1 ≤ (trapZero c (tick c.dtmin s.time0) (trapSmall c ref a)).newtime := by
      unfold Shape at sh
      have : ref + 1 ≤ (trapSmall c ref a).newtime := by
        unfold trapSmall; rw [tick_one hD]
        split
        · exact le_refl _
        · omega
      unfold trapZero; rw [tick_one hD]
      split
      · show ref + 1 ≤ tick c.dtmin s.time0 + 1
        omega
      · exact this
    simp only [Option.some.injEq, Prod.mk.injEq] at hn
    obtain ⟨rfl, _⟩ := hn
    refine ⟨tg _, ?_, ?_, rfl, ⟨_, _, _, rfl⟩⟩
    · show toDouble _ _ = tick c.dtmin (toDouble _ _) * _
      rw [tg]; rfl
    · show _ ≤ tick c.dtmin (toDouble _ _)
      rw [tg]; exact key

/-- later accepted time `a`, earlier one `b`, in ticks -/
def Later (D a b : ℚ) : Prop := a = tick D a * D ∧ tick D b < tick D a

structure AccInv (c : Cfg) (s : St) : Prop where
  ord : tick c.dtmin s.time1 ≤ tick c.dtmin s.time0
  pw : s.accepts.Pairwise (Later c.dtmin)
  le : ∀ a ∈ s.accepts, tick c.dtmin a ≤ refTick c s

theorem body_frame (e : Env) (s : St) : (body c e s).time0 = s.time0 ∧ (body c e s).time1 = s.time1 ∧
    ((body c e s).accepts = s.time0 :: s.accepts ∧ (body c e s).accepted = true ∨
     (body c e s).accepts = s.accepts ∧ (body c e s).accepted = false) := by
  rcases body_cases (c := c) e s with ⟨_, _, hb⟩ | ⟨_, _, hb⟩ | ⟨_, hb⟩ <;> rw [hb]
  · exact ⟨rfl, rfl, Or.inl ⟨rfl, rfl⟩⟩
  · exact ⟨rfl, rfl, Or.inr ⟨rfl, rfl⟩⟩
  · exact ⟨rfl, rfl, Or.inr ⟨rfl, rfl⟩⟩

theorem accInv_step (hD : 0 < c.dtmin) {s s' : St} {b : Bool} (i : AccInv c s) (hn : next c s = some (s', b)) (e : Env) :
    AccInv c (body c e s') := by
  obtain ⟨h1, h2, h3, _, ⟨t1, t0, k, hs⟩⟩ := next_min_step hD i.ord hn
  have ha : s'.accepts = s.accepts := by rw [hs]
  obtain ⟨f0, f1, f⟩ := body_frame (c := c) e s'
  rcases f with ⟨g1, g2⟩ | ⟨g1, g2⟩
  · refine ⟨by rw [f0, f1]; omega, ?_, ?_⟩
    · rw [g1]
      refine List.Pairwise.cons ?_ (ha ▸ i.pw)
      intro a hm
      rw [ha] at hm
      have := i.le a hm
      exact ⟨h2, by omega⟩
    · intro a hm
      rw [g1] at hm
      unfold refTick
      rw [g2, if_pos rfl, f0]
      rcases List.mem_cons.mp hm with rfl | hm
      · exact le_refl _
      · rw [ha] at hm
        have := i.le a hm
        omega
  · refine ⟨by rw [f0, f1]; omega, by rw [g1, ha]; exact i.pw, ?_⟩
    intro a hm
    rw [g1, ha] at hm
    unfold refTick
    rw [g2]
    simp only [Bool.false_eq_true, if_false]
    rw [f1, h1]; exact i.le a hm

theorem accInv_run (hD : 0 < c.dtmin) (es : List Env) {s0 s : St} (i : AccInv c s0) (h : Reaches c es s0 s) :
    s.accepts.Pairwise (Later c.dtmin) := by
  induction es generalizing s0 with
  | nil =>
    rcases h with h | h
    · simp only [run, Res.running.injEq] at h; rw [← h]; exact i.pw
    · simp [run] at h
  | cons e es ih =>
    unfold Reaches run at h
    cases hn : next c s0 with
    | none => rw [hn] at h; simp at h
    | some p =>
      obtain ⟨s', b⟩ := p
      rw [hn] at h
      cases b with
      | true => exact ih (accInv_step hD i hn e) h
      | false =>
        simp only [reduceCtorEq, Res.ended.injEq, false_or] at h
        obtain ⟨_, _, _, _, ⟨t1, t0, k, hs⟩⟩ := next_min_step hD i.ord hn
        rw [← h, hs]; exact i.pw

theorem start_fields (c : Cfg) (t0 : ℚ) (q : List ℚ) (e : Env) :
    (start c t0 q e).time0 = t0 ∧ (start c t0 q e).time1 = t0 ∧ (start c t0 q e).accepts = [t0] ∧ (start c t0 q e).accepted = true ∧
    (start c t0 q e).user = (if t0 < c.tstart then c.tstart else t0 + c.tstrobe) ∧
    (start c t0 q e).strobes = (if t0 = c.tstart then [t0] else []) ∧
    (start c t0 q e).eq = queued c.dtmin t0 e.acceptEvents (popPast c.dtmin t0 (queued c.dtmin t0 e.evalEvents q)) ∧
    (start c t0 q e).filed = (e.acceptEvents.map (eventTime c.dtmin t0)).reverse ++ ((e.evalEvents.map (eventTime c.dtmin t0)).reverse ++ q) := by
  unfold start accept
  simp only [fileAll_eq, review]
  split <;> simp [*]

/-- **C16.** Whatever the devices do and whichever steps fail, accepted times strictly increase.  From the second one on they
are on the `dtmin` grid and at least `dtmin` apart; if the sweep starts on the grid (as it does at time 0) all are. -/
theorem accepted_times_increase (hD : 0 < c.dtmin) (t0 : ℚ) (q : List ℚ) (e0 : Env) (es : List Env) {s : St}
    (h : Reaches c es (start c t0 q e0) s) :
    s.accepts.Pairwise (fun a b => b < a) ∧
    ((∃ n : ℤ, t0 = n * c.dtmin) → s.accepts.Pairwise (fun a b => b + c.dtmin ≤ a)) := by
  obtain ⟨f0, f1, f2, f3, _⟩ := start_fields c t0 q e0
  have i : AccInv c (start c t0 q e0) := by
    refine ⟨by rw [f0, f1], by rw [f2]; simp, ?_⟩
    intro a ha
    rw [f2] at ha
    simp only [List.mem_singleton] at ha
    unfold refTick; rw [f3, if_pos rfl, f0, ha]
  have pw := accInv_run hD es i h
  constructor
  · refine pw.imp ?_
    intro a b ⟨h1, h2⟩
    have := tick_lo hD b
    have h2' : (tick c.dtmin b : ℚ) + 1 ≤ tick c.dtmin a := by exact_mod_cast h2
    rw [h1]; nlinarith
  · rintro ⟨n, hn⟩
    -- all elements are on the grid
    have grid : ∀ b ∈ s.accepts, b = tick c.dtmin b * c.dtmin := by
      have key : ∀ (es : List Env) (s0 : St), AccInv c s0 → (∀ b ∈ s0.accepts, b = tick c.dtmin b * c.dtmin) → Reaches c es s0 s →
          ∀ b ∈ s.accepts, b = tick c.dtmin b * c.dtmin := by
        intro es
        induction es with
        | nil =>
          intro s0 _ hg hr
          rcases hr with hr | hr
          · simp only [run, Res.running.injEq] at hr; rw [← hr]; exact hg
          · simp [run] at hr
        | cons e es ih =>
          intro s0 i hg hr
          unfold Reaches run at hr
          cases hnx : next c s0 with
          | none => rw [hnx] at hr; simp at hr
          | some p =>
            obtain ⟨s', b⟩ := p
            rw [hnx] at hr
            obtain ⟨_, h2, _, _, ⟨t1, t0', k, hs⟩⟩ := next_min_step hD i.ord hnx
            have ha : s'.accepts = s0.accepts := by rw [hs]
            cases b with
            | true =>
              refine ih _ (accInv_step hD i hnx e) ?_ hr
              obtain ⟨_, _, f⟩ := body_frame (c := c) e s'
              rcases f with ⟨g1, _⟩ | ⟨g1, _⟩
              · rw [g1, ha]
                intro b hb
                rcases List.mem_cons.mp hb with rfl | hb
                · exact h2
                · exact hg b hb
              · rw [g1, ha]; exact hg
            | false =>
              simp only [reduceCtorEq, Res.ended.injEq, false_or] at hr
              rw [← hr, ha]; exact hg
      refine key es _ i ?_ h
      rw [f2]
      intro b hb
      simp only [List.mem_singleton] at hb
      rw [hb, hn, tick_grid hD]
    refine List.Pairwise.imp_of_mem ?_ pw
    intro a b ha hb ⟨h1, h2⟩
    have h2' : (tick c.dtmin b : ℚ) + 1 ≤ tick c.dtmin a := by exact_mod_cast h2
    rw [h1, grid b hb]; nlinarith

/-! ## Runs with well-behaved devices -/

/-- every step of the run: devices ask for no event in the past, and no step of a single tick fails to converge -/
def Polite (c : Cfg) : List Env → St → Prop
  | [], _ => True
  | e :: es, s =>
    match next c s with
    | some (s', true) => Polite1 c e s' ∧ Polite c es (body c e s')
    | _ => True

/-- the same for the beginning of the sweep: on the grid, queue sorted and not in the past, `tstart` now or a step later -/
structure StartOk (c : Cfg) (t0 : ℚ) (q : List ℚ) (e : Env) : Prop where
  grid : t0 = tick c.dtmin t0 * c.dtmin
  tstart : t0 = c.tstart ∨ t0 + c.dtmin ≤ c.tstart
  sorted : q.Pairwise (· ≤ ·)
  future : ∀ t ∈ q, t0 ≤ t
  eval : ∀ t ∈ e.evalEvents, t0 ≤ t
  accept : ∀ t ∈ e.acceptEvents, t0 < t

/-- first time asked for by the user after the start -/
def firstUser (c : Cfg) (t0 : ℚ) : ℚ := if t0 < c.tstart then c.tstart else t0 + c.tstrobe

structure Logs (c : Cfg) (u0 : ℚ) (init : List ℚ) (s : St) : Prop where
  ev : ∀ f ∈ s.filed, f ∈ s.eq ∨ ∃ a ∈ s.accepts, tick c.dtmin a = tick c.dtmin f
  st : ∃ k : ℕ, s.user = u0 + k * c.tstrobe ∧
    s.strobes = ((List.range k).map (fun j : ℕ => (tick c.dtmin (u0 + j * c.tstrobe) : ℚ) * c.dtmin)).reverse ++ init ∧
    ∀ j < k, tick c.dtmin (u0 + j * c.tstrobe) ≤ tick c.dtmin (c.tstop + c.dtmin)
  acc : ∀ a ∈ s.accepts, tick c.dtmin a ≤ refTick c s

theorem start_ready (h : Sane c) {t0 : ℚ} {q : List ℚ} {e : Env} (o : StartOk c t0 q e) :
    Ready c (start c t0 q e) ∧ Logs c (firstUser c t0) (if t0 = c.tstart then [t0] else []) (start c t0 q e) := by
  have hD := h.dtmin
  obtain ⟨f0, f1, f2, f3, f4, f5, f6, f7⟩ := start_fields c t0 q e
  have hqs : (queued c.dtmin t0 e.evalEvents q).Pairwise (· ≤ ·) := queued_sorted o.sorted
  have hqg : ∀ t ∈ queued c.dtmin t0 e.evalEvents q, tick c.dtmin t0 ≤ tick c.dtmin t := by
    intro t ht
    rcases mem_queued.mp ht with g | ⟨t', ht', rfl⟩
    · exact tick_mono hD (o.future t g)
    · exact eventTime_ge hD o.grid (o.eval t' ht')
  have hrev : tick c.dtmin t0 < tick c.dtmin (start c t0 q e).amb ∧ tick c.dtmin t0 < tick c.dtmin (start c t0 q e).err := by
    have : ∃ s : St, s.time0 = t0 ∧ s.time1 = t0 ∧ (start c t0 q e).amb = (review c e.ev e.er s).1.amb ∧
        (start c t0 q e).err = (review c e.ev e.er s).1.err := by
      refine ⟨fileAll c e.evalEvents
        { time1 := t0, time0 := t0, user := if t0 < c.tstart then c.tstart else t0 + c.tstrobe,
          amb := 0, err := 0, eq := q, accepted := true, converged := e.conv, exceeds := e.exceeds,
          control := if t0 < c.tstart then 9 else 1, accepts := [], strobes := [], filed := q }, ?_, ?_, ?_, ?_⟩
      · rw [fileAll_eq]
      · rw [fileAll_eq]
      · unfold start accept; simp only; split <;> rw [fileAll_eq]
      · unfold start accept; simp only; split <;> rw [fileAll_eq]
    obtain ⟨s, s0, s1, sa, se⟩ := this
    have := review_spec hD e.ev e.er s (n0 := tick c.dtmin t0) (n1 := tick c.dtmin t0) (by rw [s0]; exact o.grid) (by rw [s1]; exact o.grid)
    rw [sa, se]; exact ⟨this.1, this.2.1⟩
  refine ⟨⟨by rw [f0]; exact o.grid, by rw [f1]; exact o.grid, by rw [f0, f1], ?_, ?_, ?_⟩, ⟨?_, ?_, ?_⟩⟩
  · rw [f6]; exact queued_sorted (hqs.sublist (popPast_sublist _ _ _))
  · intro _
    rw [f0, f1, f4, f6]
    refine ⟨?_, ?_, hrev.1, hrev.2, Or.inr rfl⟩
    · intro t ht
      rcases mem_queued.mp ht with g | ⟨t', ht', rfl⟩
      · exact popPast_gt hD hqs t g
      · exact eventTime_gt hD o.grid (o.accept t' ht')
    · have s1 : tick c.dtmin t0 + 1 ≤ tick c.dtmin (t0 + c.tstrobe) := tick_add hD t0 h.strobe
      split
      · rename_i hlt
        rcases o.tstart with g | g
        · rw [g] at hlt; exact absurd hlt (lt_irrefl _)
        · have s2 := tick_add hD t0 (le_refl c.dtmin)
          have s3 := tick_mono hD g
          omega
      · omega
  · intro hf; rw [f3] at hf; cases hf
  · intro f hf
    rw [f7] at hf
    rw [f6, f2]
    rcases List.mem_append.mp hf with g | g
    · left
      rw [mem_queued]; right
      simp only [List.mem_reverse, List.mem_map] at g
      obtain ⟨t, ht, rfl⟩ := g
      exact ⟨t, ht, rfl⟩
    · have hm : f ∈ queued c.dtmin t0 e.evalEvents q := by
        rw [mem_queued]
        rcases List.mem_append.mp g with g | g
        · right
          simp only [List.mem_reverse, List.mem_map] at g
          obtain ⟨t, ht, rfl⟩ := g
          exact ⟨t, ht, rfl⟩
        · left; exact g
      rcases popPast_lost (D := c.dtmin) (time0 := t0) hm with g | g
      · left; rw [mem_queued]; left; exact g
      · right
        refine ⟨t0, by simp, ?_⟩
        have := hqg f hm
        omega
  · exact ⟨0, by rw [f4]; simp [firstUser], by rw [f5]; simp, by intro j hj; omega⟩
  · intro a ha
    rw [f2] at ha
    simp only [List.mem_singleton] at ha
    unfold refTick; rw [f3, if_pos rfl, f0, ha]

theorem body_logs (h : Sane c) {e : Env} {s s' : St} {u0 : ℚ} {init : List ℚ} (m : Mid c s') (p : Polite1 c e s')
    (hM : tick c.dtmin s'.time0 ≤ tick c.dtmin (c.tstop + c.dtmin))
    (l : Logs c u0 init s) (hs : ∃ t1 t0 k, s' = { s with time1 := t1, time0 := t0, control := k })
    (hr : tick c.dtmin s'.time1 = refTick c s) : Logs c u0 init (body c e s') := by
  have hD := h.dtmin
  obtain ⟨p1, p2, p3⟩ := p
  have hlt := m.lt
  have e1 : s'.eq = s.eq := by obtain ⟨_, _, _, rfl⟩ := hs; rfl
  have e2 : s'.filed = s.filed := by obtain ⟨_, _, _, rfl⟩ := hs; rfl
  have e3 : s'.accepts = s.accepts := by obtain ⟨_, _, _, rfl⟩ := hs; rfl
  have e4 : s'.user = s.user := by obtain ⟨_, _, _, rfl⟩ := hs; rfl
  have e5 : s'.strobes = s.strobes := by obtain ⟨_, _, _, rfl⟩ := hs; rfl
  have hq : ∀ t ∈ queued c.dtmin s'.time0 e.evalEvents s'.eq, tick c.dtmin s'.time0 ≤ tick c.dtmin t := by
    intro t ht
    rcases mem_queued.mp ht with q | ⟨t', ht', rfl⟩
    · exact m.evs t q
    · exact eventTime_ge hD m.g0 (p1 t' ht')
  have hf : ∀ f ∈ (e.evalEvents.map (eventTime c.dtmin s'.time0)).reverse ++ s'.filed,
      f ∈ queued c.dtmin s'.time0 e.evalEvents s'.eq ∨ ∃ a ∈ s.accepts, tick c.dtmin a = tick c.dtmin f := by
    intro f hf
    rcases List.mem_append.mp hf with g | g
    · left
      rw [mem_queued]; right
      simp only [List.mem_reverse, List.mem_map] at g
      obtain ⟨t, ht, rfl⟩ := g
      exact ⟨t, ht, rfl⟩
    · rw [e2] at g
      rcases l.ev f g with g | g
      · left; rw [mem_queued, e1]; left; exact g
      · right; exact g
  have hrej : ∀ a ∈ s.accepts, tick c.dtmin a ≤ tick c.dtmin s'.time1 := by
    intro a ha; rw [hr]; exact l.acc a ha
  rcases body_cases (c := c) e s' with ⟨hc, hr, hb⟩ | ⟨hc, hr, hb⟩ | ⟨hc, hb⟩
  · rw [hb]
    refine ⟨?_, ?_, ?_⟩
    · intro f hf'
      rcases List.mem_append.mp hf' with g | g
      · left
        show f ∈ queued _ _ _ _
        rw [mem_queued]; right
        simp only [List.mem_reverse, List.mem_map] at g
        obtain ⟨t, ht, rfl⟩ := g
        exact ⟨t, ht, rfl⟩
      · rcases hf f g with g | ⟨a, ha, hat⟩
        · rcases popPast_lost (D := c.dtmin) (time0 := s'.time0) g with g' | g'
          · left; show f ∈ queued _ _ _ _; rw [mem_queued]; left; exact g'
          · right
            refine ⟨s'.time0, by simp, ?_⟩
            have := hq f g
            omega
        · right; exact ⟨a, by simp only [List.mem_cons]; right; rw [e3]; exact ha, hat⟩
    · obtain ⟨k, k1, k2, k3⟩ := l.st
      by_cases hctl : s'.control = 1
      · refine ⟨k + 1, ?_, ?_, ?_⟩
        · show (if s'.control = 1 then s'.user + c.tstrobe else s'.user) = _
          rw [if_pos hctl, e4, k1]; push_cast; ring
        · show (if s'.control = 1 then s'.time0 :: s'.strobes else s'.strobes) = _
          rw [if_pos hctl, e5, k2, List.range_succ, List.map_append, List.reverse_append]
          simp only [List.map_cons, List.map_nil, List.reverse_cons, List.reverse_nil, List.nil_append, List.cons_append,
            List.singleton_append]
          congr 1
          rw [← k1, ← e4, ← m.ctl.mp hctl]; exact m.g0
        · intro j hj
          by_cases hjk : j = k
          · rw [hjk, ← k1, ← e4, ← m.ctl.mp hctl]; exact hM
          · exact k3 j (by omega)
      · exact ⟨k, by show (if s'.control = 1 then s'.user + c.tstrobe else s'.user) = _; rw [if_neg hctl, e4, k1],
          by show (if s'.control = 1 then s'.time0 :: s'.strobes else s'.strobes) = _; rw [if_neg hctl, e5, k2], k3⟩
    · intro a ha
      show tick c.dtmin a ≤ tick c.dtmin s'.time0
      rcases List.mem_cons.mp ha with rfl | ha
      · exact le_refl _
      · rw [e3] at ha; have := hrej a ha; omega
  · rw [hb]
    refine ⟨?_, ?_, ?_⟩
    · intro f hf'; rcases hf f hf' with g | g
      · left; exact g
      · right; show ∃ a ∈ s'.accepts, _; rw [e3]; exact g
    · show ∃ k : ℕ, s'.user = _ ∧ s'.strobes = _ ∧ _
      rw [e4, e5]; exact l.st
    · intro a ha
      have ha' : a ∈ s'.accepts := ha
      rw [e3] at ha'
      exact hrej a ha'
  · rw [hb]
    refine ⟨?_, ?_, ?_⟩
    · intro f hf'; rcases hf f hf' with g | g
      · left; exact g
      · right; show ∃ a ∈ s'.accepts, _; rw [e3]; exact g
    · show ∃ k : ℕ, s'.user = _ ∧ s'.strobes = _ ∧ _
      rw [e4, e5]; exact l.st
    · intro a ha
      have ha' : a ∈ s'.accepts := ha
      rw [e3] at ha'
      exact hrej a ha'

/-- what holds of a run's outcome -/
def Outcome (c : Cfg) (u0 : ℚ) (init : List ℚ) : Res → Prop
  | .running s => Ready c s ∧ Logs c u0 init s
  | .ended s => Mid c s ∧ tick c.dtmin (c.tstop + c.dtmin) < tick c.dtmin s.time0 ∧
      ∃ s0, Ready c s0 ∧ Logs c u0 init s0 ∧ next c s0 = some (s, false) ∧ ∃ t1 t0 k, s = { s0 with time1 := t1, time0 := t0, control := k }
  | .crashed => False

theorem run_outcome (h : Sane c) (es : List Env) {s : St} {u0 : ℚ} {init : List ℚ} (r : Ready c s) (l : Logs c u0 init s)
    (p : Polite c es s) : Outcome c u0 init (run c es s) := by
  induction es generalizing s with
  | nil => exact ⟨r, l⟩
  | cons e es ih =>
    obtain ⟨s', b, hn, hm, hf, hr, _, hb⟩ := next_mid h r
    unfold Polite at p
    unfold run
    rw [hn] at p ⊢
    cases b with
    | true => exact ih (body_ready h hm p.1) (body_logs h hm p.1 (hb.mp rfl) l hf hr) p.2
    | false =>
      refine ⟨hm, ?_, s, r, l, hn, hf⟩
      by_contra hc
      have := hb.mpr (by omega)
      cases this

/-! ## C17: nothing is stepped over -/

/-- **C17 (partial: well-behaved devices, no one-tick convergence failure).**  Wherever the sweep has got to, the next time
point is not later than the user's next request nor than any pending event, and is chosen without undefined behaviour. -/
theorem next_never_late_partial (h : Sane c) {t0 : ℚ} {q : List ℚ} {e0 : Env} (o : StartOk c t0 q e0) (es : List Env)
    (p : Polite c es (start c t0 q e0)) {s : St} (hr : run c es (start c t0 q e0) = .running s) :
    ∃ s' b, next c s = some (s', b) ∧ tick c.dtmin s'.time0 ≤ tick c.dtmin s.user ∧
      (∀ t ∈ s.eq, tick c.dtmin s'.time0 ≤ tick c.dtmin t) ∧ ∀ a ∈ s.accepts, a < s'.time0 := by
  obtain ⟨r, l⟩ := start_ready h o
  have out := run_outcome h es r l p
  rw [hr] at out
  obtain ⟨r', l'⟩ := out
  obtain ⟨s', b, hn, hm, ⟨t1, t0', k, rfl⟩, hr', _, hb⟩ := next_mid h r'
  refine ⟨_, b, hn, hm.user, hm.evs, ?_⟩
  intro a ha
  have h1 := l'.acc a ha
  have h2 := hm.lt
  rw [hr'] at h2
  by_contra hc
  have := tick_mono h.dtmin (not_lt.mp hc)
  omega

/-- **C17, over a whole run (partial: as above).**  Every event ever filed is met by an accepted time point in its very tick,
or is still pending and later than every accepted time. -/
theorem events_not_stepped_over_partial (h : Sane c) {t0 : ℚ} {q : List ℚ} {e0 : Env} (o : StartOk c t0 q e0) (es : List Env)
    (p : Polite c es (start c t0 q e0)) {s : St} (hr : Reaches c es (start c t0 q e0) s) (f : ℚ) (hf : f ∈ s.filed) :
    (∃ a ∈ s.accepts, tick c.dtmin a = tick c.dtmin f) ∨ (f ∈ s.eq ∧ ∀ a ∈ s.accepts, tick c.dtmin a < tick c.dtmin f) := by
  obtain ⟨r, l⟩ := start_ready h o
  have out := run_outcome h es r l p
  have key : ∀ s : St, Ready c s → Logs c (firstUser c t0) (if t0 = c.tstart then [t0] else []) s → ∀ f ∈ s.filed,
      (∃ a ∈ s.accepts, tick c.dtmin a = tick c.dtmin f) ∨ (f ∈ s.eq ∧ ∀ a ∈ s.accepts, tick c.dtmin a < tick c.dtmin f) := by
    intro s r l f hf
    rcases l.ev f hf with g | g
    · right
      refine ⟨g, fun a ha => ?_⟩
      have h1 := l.acc a ha
      unfold refTick at h1
      cases hac : s.accepted with
      | true => rw [hac, if_pos rfl] at h1; have := (r.ac hac).1 f g; omega
      | false =>
        rw [hac] at h1
        simp only [Bool.false_eq_true, if_false] at h1
        have := (r.rj hac).2.1 f g; omega
    · left; exact g
  rcases hr with hr | hr
  · rw [hr] at out; exact key s out.1 out.2 f hf
  · rw [hr] at out
    obtain ⟨_, _, s0, r0, l0, _, t1, t0', k, rfl⟩ := out
    exact key s0 r0 l0 f hf

/-! ## C18: no spinning -/

/-- ticks still to go, and how many times a step from the same point can still be retried -/
def potential (c : Cfg) (n : ℤ) (s : St) : ℤ :=
  let M := tick c.dtmin (c.tstop + c.dtmin)
  (M - refTick c s) * (M - n + 1) + (if s.accepted then M - n else tick c.dtmin s.time0 - tick c.dtmin s.time1 - 1)

theorem potential_decreases (h : Sane c) {s s' : St} {n : ℤ} (r : Ready c s) (hn : next c s = some (s', true)) (e : Env)
    (hle : n ≤ refTick c s) : 0 ≤ potential c n s ∧ potential c n (body c e s') + 1 ≤ potential c n s ∧ n ≤ refTick c (body c e s') := by
  obtain ⟨s'', b, hn', hm, hf, hr, hback, hb⟩ := next_mid h r
  rw [hn] at hn'
  simp only [Option.some.injEq, Prod.mk.injEq] at hn'
  obtain ⟨rfl, rfl⟩ := hn'
  have hM := hb.mp rfl
  obtain ⟨f0, f1, f⟩ := body_frame (c := c) e s'
  have hlt := hm.lt
  unfold potential
  simp only
  have hrej : s.accepted = false → refTick c s = tick c.dtmin s.time1 ∧ tick c.dtmin s.time1 < tick c.dtmin s.time0 := by
    intro hac
    exact ⟨by simp [refTick, hac], (r.rj hac).1⟩
  generalize tick c.dtmin (c.tstop + c.dtmin) = M at *
  generalize hR : refTick c s = R at *
  have hX : 0 ≤ (if s.accepted then M - n else tick c.dtmin s.time0 - tick c.dtmin s.time1 - 1) := by
    cases hac : s.accepted with
    | true => simp only [if_true]; omega
    | false => simp only [Bool.false_eq_true, if_false]; have := (hrej hac).2; omega
  have hMR : 1 ≤ M - R := by omega
  have hpos : 0 ≤ (M - R) * (M - n + 1) := Int.mul_nonneg (by omega) (by omega)
  rcases f with ⟨_, g2⟩ | ⟨_, g2⟩
  · have hR' : refTick c (body c e s') = tick c.dtmin s'.time0 := by unfold refTick; rw [g2, if_pos rfl, f0]
    rw [hR', g2, if_pos rfl]
    refine ⟨by omega, ?_, by omega⟩
    have : (M - tick c.dtmin s'.time0) * (M - n + 1) ≤ (M - R - 1) * (M - n + 1) :=
      Int.mul_le_mul_of_nonneg_right (by omega) (by omega)
    have e : (M - R - 1) * (M - n + 1) = (M - R) * (M - n + 1) - (M - n + 1) := by ring
    omega
  · have hR' : refTick c (body c e s') = R := by
      unfold refTick; rw [g2]; simp only [Bool.false_eq_true, if_false]; rw [f1, hr]
    rw [hR', g2, f0, f1]
    simp only [Bool.false_eq_true, if_false]
    refine ⟨by omega, ?_, by omega⟩
    cases hac : s.accepted with
    | true => simp only [if_true]; omega
    | false =>
      simp only [Bool.false_eq_true, if_false]
      have := hback hac
      have := (hrej hac).1
      omega

theorem run_bounded (h : Sane c) (n : ℤ) (es : List Env) {s : St} {u0 : ℚ} {init : List ℚ} (r : Ready c s)
    (p : Polite c es s) (hle : n ≤ refTick c s) (hp : 0 ≤ potential c n s) {s' : St} (hr : run c es s = .running s') :
    (es.length : ℤ) ≤ potential c n s := by
  induction es generalizing s with
  | nil => simpa using hp
  | cons e es ih =>
    obtain ⟨s1, b, hn, hm, hf, _⟩ := next_mid h r
    unfold Polite at p
    unfold run at hr
    rw [hn] at p hr
    cases b with
    | false => simp at hr
    | true =>
      obtain ⟨p0, p1, p2⟩ := potential_decreases h r hn e hle
      have r' := body_ready h hm p.1
      -- either the list is finished or the potential after the step is nonnegative
      cases es with
      | nil =>
        have hnn : 0 ≤ potential c n (body c e s1) ∨ (1 : ℤ) ≤ potential c n s := by
          right
          -- at least one tick was still to go
          obtain ⟨s1', b', hn', hm', _, hr', _, hb'⟩ := next_mid h r
          rw [hn] at hn'
          simp only [Option.some.injEq, Prod.mk.injEq] at hn'
          obtain ⟨rfl, rfl⟩ := hn'
          have hM := hb'.mp rfl
          have := hm'.lt
          unfold potential
          simp only
          generalize tick c.dtmin (c.tstop + c.dtmin) = M at *
          have h1 : 1 * 1 ≤ (M - refTick c s) * (M - n + 1) := Int.mul_le_mul (by omega) (by omega) (by omega) (by omega)
          have hX : 0 ≤ (if s.accepted then M - n else tick c.dtmin s.time0 - tick c.dtmin s.time1 - 1) := by
            cases hac : s.accepted with
            | true => simp only [if_true]; omega
            | false => simp only [Bool.false_eq_true, if_false]; have := (r.rj hac).1; omega
          omega
        rcases hnn with q | q
        · simp; omega
        · simpa using q
      | cons e2 es2 =>
        have hp' : 0 ≤ potential c n (body c e s1) := by
          obtain ⟨s2, b2, hn2, _⟩ := next_mid h r'
          cases b2 with
          | true => exact (potential_decreases h r' hn2 e2 p2).1
          | false => simp [run, hn2] at hr
        have := ih r' p.2 p2 hp' hr
        simp only [List.length_cons] at this ⊢
        push_cast at this ⊢
        omega

/-- **C18 (partial: well-behaved devices, no one-tick convergence failure).**  A sweep from tick `n` to `M` (the stop time plus a
tick) is over after at most `(M-n)(M-n+2)` steps, accepted and rejected ones together: no longer schedule keeps it running. -/
theorem sweep_terminates_partial (h : Sane c) {t0 : ℚ} {q : List ℚ} {e0 : Env} (o : StartOk c t0 q e0) (es : List Env)
    (p : Polite c es (start c t0 q e0)) (hts : t0 ≤ c.tstop)
    (hlong : (tick c.dtmin (c.tstop + c.dtmin) - tick c.dtmin t0) * (tick c.dtmin (c.tstop + c.dtmin) - tick c.dtmin t0 + 2) < es.length) :
    ∃ s, run c es (start c t0 q e0) = .ended s := by
  obtain ⟨r, l⟩ := start_ready h o
  have out := run_outcome h es r l p
  obtain ⟨f0, f1, f2, f3, _⟩ := start_fields c t0 q e0
  cases hrun : run c es (start c t0 q e0) with
  | crashed => rw [hrun] at out; exact absurd out id
  | ended s => exact ⟨s, rfl⟩
  | running s =>
    exfalso
    have hR : refTick c (start c t0 q e0) = tick c.dtmin t0 := by unfold refTick; rw [f3, if_pos rfl, f0]
    have hM : tick c.dtmin t0 ≤ tick c.dtmin (c.tstop + c.dtmin) := tick_mono h.dtmin (by linarith [h.dtmin])
    have hp : potential c (tick c.dtmin t0) (start c t0 q e0) =
        (tick c.dtmin (c.tstop + c.dtmin) - tick c.dtmin t0) * (tick c.dtmin (c.tstop + c.dtmin) - tick c.dtmin t0 + 2) := by
      unfold potential
      simp only
      rw [hR, f3, if_pos rfl]; ring
    have h0 : 0 ≤ potential c (tick c.dtmin t0) (start c t0 q e0) := by
      rw [hp]; exact Int.mul_nonneg (by omega) (by omega)
    have := run_bounded (u0 := 0) (init := []) h _ es r p (by rw [hR]) h0 hrun
    rw [hp] at this
    omega

/-- **C18, the unconditional part.**  Every step the sweep tries is at least `dtmin` long, and starts at the last accepted time. -/
theorem step_at_least_dtmin (hD : 0 < c.dtmin) {s s' : St} {b : Bool} (ho : s.time1 ≤ s.time0) (hn : next c s = some (s', b)) :
    s'.time1 + c.dtmin ≤ s'.time0 := by
  obtain ⟨h1, h2, h3, h4, _⟩ := next_min_step hD (tick_mono hD ho) hn
  rw [h2, h4]
  have : (refTick c s : ℚ) + 1 ≤ tick c.dtmin s'.time0 := by exact_mod_cast h3
  nlinarith

/-! ## C19: strobe times -/

/-- **C19 (partial: as above).**  The output times are, in this order, the start (if output starts there), then the requests
`u0, u0+tstrobe, u0+2*tstrobe, ...` each rounded to the `dtmin` grid: none missing, none twice.  When the sweep is over all
requests up to the stop time have been served, and none beyond the stop time plus a tick. -/
theorem strobes_exact_partial (h : Sane c) {t0 : ℚ} {q : List ℚ} {e0 : Env} (o : StartOk c t0 q e0) (es : List Env)
    (p : Polite c es (start c t0 q e0)) {s : St} (hr : Reaches c es (start c t0 q e0) s) :
    ∃ k : ℕ, s.strobes.reverse = (if t0 = c.tstart then [t0] else []) ++
        (List.range k).map (fun j : ℕ => (tick c.dtmin (firstUser c t0 + j * c.tstrobe) : ℚ) * c.dtmin) ∧
      (∀ j < k, tick c.dtmin (firstUser c t0 + j * c.tstrobe) ≤ tick c.dtmin (c.tstop + c.dtmin)) ∧
      (run c es (start c t0 q e0) = .ended s → ∀ j : ℕ, firstUser c t0 + j * c.tstrobe ≤ c.tstop → j < k) := by
  obtain ⟨r, l⟩ := start_ready h o
  have out := run_outcome h es r l p
  have rv : ∀ (k : ℕ) (init : List ℚ), (init = [] ∨ ∃ x, init = [x]) →
      (((List.range k).map (fun j : ℕ => (tick c.dtmin (firstUser c t0 + j * c.tstrobe) : ℚ) * c.dtmin)).reverse ++ init).reverse =
      init ++ (List.range k).map (fun j : ℕ => (tick c.dtmin (firstUser c t0 + j * c.tstrobe) : ℚ) * c.dtmin) := by
    intro k init hi
    rw [List.reverse_append, List.reverse_reverse]
    rcases hi with rfl | ⟨x, rfl⟩ <;> rfl
  have hi : (if t0 = c.tstart then [t0] else []) = [] ∨ ∃ x, (if t0 = c.tstart then [t0] else []) = [x] := by
    split
    · right; exact ⟨t0, rfl⟩
    · left; rfl
  rcases hr with hr | hr
  · rw [hr] at out
    obtain ⟨k, k1, k2, k3⟩ := out.2.st
    exact ⟨k, by rw [k2, rv _ _ hi], k3, fun he => by rw [hr] at he; cases he⟩
  · rw [hr] at out
    obtain ⟨hm, hM, s0, r0, l0, hn, t1, t0', kk, hs⟩ := out
    obtain ⟨k, k1, k2, k3⟩ := l0.st
    refine ⟨k, by rw [hs]; show s0.strobes.reverse = _; rw [k2, rv _ _ hi], k3, fun _ j hj => ?_⟩
    by_contra hjk
    have hu := hm.user
    have e4 : s.user = s0.user := by rw [hs]
    have hkj : (k : ℚ) ≤ j := by exact_mod_cast (not_lt.mp hjk)
    have hs0 : 0 < c.tstrobe := lt_of_lt_of_le h.dtmin h.strobe
    have : s.user ≤ c.tstop := by rw [e4, k1]; nlinarith
    have := tick_mono h.dtmin (this.trans (by linarith [h.dtmin] : c.tstop ≤ c.tstop + c.dtmin))
    omega

/-! ## C20: the event queue -/

/-- **C20.** A request is filed on the `dtmin` grid, less than a tick away, and monotonically; a request for the future
is filed in the future, one for now not in the past (seen from a time on the grid). -/
theorem eventTime_spec {D time0 t : ℚ} (hD : 0 < D) {n : ℤ} (hn : time0 = n * D) :
    (∃ k : ℤ, eventTime D time0 t = k * D) ∧ |eventTime D time0 t - t| < D ∧
    (time0 < t → time0 + D ≤ eventTime D time0 t) ∧ (time0 ≤ t → time0 ≤ eventTime D time0 t) ∧
    (∀ t', t ≤ t' → eventTime D time0 t ≤ eventTime D time0 t') := by
  have grid : ∀ t, ∃ k : ℤ, eventTime D time0 t = k * D := by
    intro t
    unfold eventTime
    rw [if_neg (not_le.mpr hD)]
    split
    · exact ⟨_, rfl⟩
    · exact ⟨_, rfl⟩
  refine ⟨grid t, ?_, ?_, ?_, ?_⟩
  · unfold eventTime
    rw [if_neg (not_le.mpr hD), abs_lt]
    have et : t = t / D * D := by field_simp
    split
    · have h1 := Int.le_ceil (t / D)
      have h2 := Int.ceil_lt_add_one (t / D)
      constructor <;> nlinarith
    · have h1 := rnd_lo (t / D)
      have h2 := rnd_hi (t / D)
      constructor <;> nlinarith
  · intro h
    have h1 := eventTime_gt hD hn h
    obtain ⟨k, hk⟩ := grid t
    rw [hk, tick_grid hD] at h1
    rw [hk, hn]
    have : (n : ℚ) + 1 ≤ k := by exact_mod_cast h1
    nlinarith
  · intro h
    have h1 := eventTime_ge hD hn h
    obtain ⟨k, hk⟩ := grid t
    rw [hk, tick_grid hD] at h1
    rw [hk, hn]
    have : (n : ℚ) ≤ k := by exact_mod_cast h1
    nlinarith
  · intro t' htt
    have hq : t / D ≤ t' / D := div_le_div_of_nonneg_right htt hD.le
    unfold eventTime
    rw [if_neg (not_le.mpr hD), if_neg (not_le.mpr hD)]
    split <;> split
    · exact mul_le_mul_of_nonneg_right (by exact_mod_cast Int.ceil_mono hq) hD.le
    · rename_i h1 h2
      apply mul_le_mul_of_nonneg_right _ hD.le
      have a : ⌈t / D⌉ ≤ n + 1 := by
        rw [Int.ceil_le, div_le_iff₀ hD]; push_cast; linarith
      have b : n + 1 ≤ rnd (t' / D) := by
        apply le_rnd
        rw [le_div_iff₀ hD]; push_cast; linarith [not_le.mp h2]
      exact_mod_cast a.trans b
    · rename_i h1 h2; exact absurd (htt.trans h2) h1
    · exact mul_le_mul_of_nonneg_right (by exact_mod_cast rnd_mono hq) hD.le

/-- operations on the queue -/
inductive QOp where
  | file (time0 t : ℚ)     -- new_event
  | pop                    -- accept's pop

/-- contents of the queue and what was popped, newest first -/
def qstep (D : ℚ) (o : QOp) (p : List ℚ × List ℚ) : List ℚ × List ℚ :=
  match o with
  | .file time0 t => ((newEvent D time0 t p.1).1, p.2)
  | .pop => match p.1 with
    | [] => p
    | x :: q => (q, x :: p.2)

/-- what was filed -/
def filedBy (D : ℚ) : List QOp → List ℚ
  | [] => []
  | .file time0 t :: os => eventTime D time0 t :: filedBy D os
  | .pop :: os => filedBy D os

/-- **C20, nothing lost, order.** After any operations the queue and what was popped are together exactly what was filed, and
the queue is sorted, so that `pop` always takes the earliest. -/
theorem queue_run (D : ℚ) (os : List QOp) (p : List ℚ × List ℚ) (h : p.1.Pairwise (· ≤ ·)) :
    let r := os.foldl (fun p o => qstep D o p) p
    r.1.Pairwise (· ≤ ·) ∧ (r.1 ++ r.2).Perm (filedBy D os ++ (p.1 ++ p.2)) := by
  induction os generalizing p with
  | nil => exact ⟨h, List.Perm.refl _⟩
  | cons o os ih =>
    cases o with
    | file time0 t =>
      have := ih (qstep D (.file time0 t) p) (push_sorted h)
      refine ⟨this.1, this.2.trans ?_⟩
      show (filedBy D os ++ (push (eventTime D time0 t) p.1 ++ p.2)).Perm (eventTime D time0 t :: filedBy D os ++ (p.1 ++ p.2))
      have h1 : (push (eventTime D time0 t) p.1 ++ p.2).Perm (eventTime D time0 t :: (p.1 ++ p.2)) := (push_perm _ _).append_right _
      exact (h1.append_left _).trans List.perm_middle
    | pop =>
      obtain ⟨q, out⟩ := p
      cases q with
      | nil => exact ih ([], out) h
      | cons x q =>
        have := ih (q, x :: out) h.of_cons
        refine ⟨this.1, this.2.trans ?_⟩
        show (filedBy D os ++ (q ++ x :: out)).Perm (filedBy D os ++ (x :: q ++ out))
        exact (List.perm_middle).append_left _

/-- consequence: `pop` takes an earliest event -/
theorem pop_earliest (D : ℚ) (os : List QOp) {x : ℚ} {q out : List ℚ}
    (h : os.foldl (fun p o => qstep D o p) ([], []) = (x :: q, out)) : ∀ y ∈ q, x ≤ y := by
  have := (queue_run D os ([], []) List.Pairwise.nil).1
  rw [h] at this
  exact fun y hy => List.rel_of_pairwise_cons this hy

/-! ## Examples: the hypotheses are met by non-trivial runs -/

/-- 1 s ticks; output every 10, up to 40; at most 7 per step -/
def exCfg : Cfg := ⟨1, 7, 0, 40, 10, 2, 1000, 1000⟩

/-- converging, no limits -/
def exGood : Env := ⟨true, false, 1000, 1000, [], []⟩

/-- a step that the devices accept, filing an event at 15.3 -/
def exEvent : Env := ⟨true, false, 1000, 1000, [], [153/10]⟩

/-- a convergence failure -/
def exBad : Env := ⟨false, false, 1000, 1000, [], []⟩

/-- rejected by truncation error: wants a two tick step -/
def exTrunc : Env := ⟨true, false, 1000, 0, [], []⟩

example : Sane exCfg := ⟨by decide +kernel, by decide +kernel, by decide +kernel, by decide +kernel, by decide +kernel, by decide +kernel⟩

example : StartOk exCfg 0 [] exGood := ⟨by decide +kernel, by decide +kernel, by decide +kernel, by decide +kernel, by decide +kernel, by decide +kernel⟩

instance (c : Cfg) (e : Env) (s : St) : Decidable (Polite1 c e s) := by unfold Polite1; infer_instance

/-- executable version of `Polite` -/
def politeB (c : Cfg) : List Env → St → Bool
  | [], _ => true
  | e :: es, s =>
    match next c s with
    | some (s', true) => decide (Polite1 c e s') && politeB c es (body c e s')
    | _ => true

theorem polite_of_politeB {es : List Env} {s : St} (h : politeB c es s = true) : Polite c es s := by
  induction es generalizing s with
  | nil => trivial
  | cons e es ih =>
    unfold politeB at h
    unfold Polite
    split
    · rename_i s' hn
      rw [hn] at h
      simp only [Bool.and_eq_true, decide_eq_true_eq] at h
      exact ⟨h.1, ih h.2⟩
    · trivial

/-- what a run logged: accepted times and output times, oldest first -/
def logOf : Res → Option (Bool × List ℚ × List ℚ)
  | .running s => some (false, s.accepts.reverse, s.strobes.reverse)
  | .ended s => some (true, s.accepts.reverse, s.strobes.reverse)
  | .crashed => none

def exEnvs : List Env := [exGood, exEvent, exBad, exGood, exGood, exGood, exGood, exTrunc, exGood] ++ List.replicate 30 exGood

/-- a run with a convergence failure, a truncation error rejection and an event -/
example : Polite exCfg exEnvs (start exCfg 0 [] exGood) ∧ logOf (run exCfg exEnvs (start exCfg 0 [] exGood)) =
    some (true, [0, 1, 4, 7, 10, 15, 20, 22, 26, 30, 35, 40], [0, 10, 20, 30, 40]) :=
  ⟨polite_of_politeB (by decide +kernel), by decide +kernel⟩

/-! ## What goes wrong otherwise -/

/-- **C18 fails.**  If no step converges the sweep never ends: the step shrinks to one tick, is replaced by a two tick step, shrinks
to one tick again and so on.  The failure is reported, but the analysis repeats the same two steps for ever; however
long the schedule of failures, it is still running and has accepted nothing but the starting point. -/
def spinCfg : Cfg := ⟨1, 100, 0, 100, 100, 2, 1000, 1000⟩

def spinA : St :=
  match run spinCfg [exBad, exBad] (start spinCfg 0 [] exGood) with
  | .running s => s
  | _ => start spinCfg 0 [] exGood

def spinB : St :=
  match run spinCfg [exBad] spinA with
  | .running s => s
  | _ => spinA

theorem step_control_spins (k : ℕ) : ∃ s, run spinCfg (List.replicate k exBad) (start spinCfg 0 [] exGood) = .running s ∧ s.accepts = [0] := by
  have h0 : ∃ s1, next spinCfg (start spinCfg 0 [] exGood) = some (s1, true) ∧ (body spinCfg exBad s1).accepts = [0] ∧
      ∃ s2, next spinCfg (body spinCfg exBad s1) = some (s2, true) ∧ body spinCfg exBad s2 = spinA := by
    refine ⟨((next spinCfg (start spinCfg 0 [] exGood)).get (by decide +kernel)).1, ?_, by decide +kernel,
      ((next spinCfg (body spinCfg exBad ((next spinCfg (start spinCfg 0 [] exGood)).get (by decide +kernel)).1)).get (by decide +kernel)).1, ?_, by decide +kernel⟩
    · exact (Option.some_get _).symm.trans (by rw [Option.some.injEq]; exact Prod.ext rfl (by decide +kernel))
    · exact (Option.some_get _).symm.trans (by rw [Option.some.injEq]; exact Prod.ext rfl (by decide +kernel))
  have hA : ∃ s1, next spinCfg spinA = some (s1, true) ∧ body spinCfg exBad s1 = spinB := by
    refine ⟨((next spinCfg spinA).get (by decide +kernel)).1, ?_, by decide +kernel⟩
    exact (Option.some_get _).symm.trans (by rw [Option.some.injEq]; exact Prod.ext rfl (by decide +kernel))
  have hB : ∃ s1, next spinCfg spinB = some (s1, true) ∧ body spinCfg exBad s1 = spinA := by
    refine ⟨((next spinCfg spinB).get (by decide +kernel)).1, ?_, by decide +kernel⟩
    exact (Option.some_get _).symm.trans (by rw [Option.some.injEq]; exact Prod.ext rfl (by decide +kernel))
  have key : ∀ k, (∃ s, run spinCfg (List.replicate k exBad) spinA = .running s ∧ s.accepts = [0]) ∧
      (∃ s, run spinCfg (List.replicate k exBad) spinB = .running s ∧ s.accepts = [0]) := by
    intro k
    induction k with
    | zero => exact ⟨⟨spinA, rfl, by decide +kernel⟩, ⟨spinB, rfl, by decide +kernel⟩⟩
    | succ k ih =>
      obtain ⟨sa, ha1, ha2⟩ := hA
      obtain ⟨sb, hb1, hb2⟩ := hB
      simp only [List.replicate_succ, run, ha1, ha2, hb1, hb2]
      exact ⟨ih.2, ih.1⟩
  obtain ⟨s1, h1, h2, s2, h3, h4⟩ := h0
  match k with
  | 0 => exact ⟨_, rfl, by decide +kernel⟩
  | 1 => exact ⟨_, by simp only [List.replicate_succ, List.replicate_zero, run, h1], h2⟩
  | k + 2 =>
    simp only [List.replicate_succ, run, h1, h3, h4]
    exact (key k).1

/-- **C17 and C19 fail** for a step of one tick that does not converge: a single failure at the user's first output time, and the
sweep steps over it; from then on the request is in the past, every step is one tick, and no output is made to the end. -/
theorem strobe_lost : logOf (run ⟨1, 100, 0, 5, 1, 2, 1000, 1000⟩ (exBad :: List.replicate 8 exGood) (start ⟨1, 100, 0, 5, 1, 2, 1000, 1000⟩ 0 [] exGood)) =
    some (true, [0, 2, 3, 4, 5, 6], [0]) := by decide +kernel

/-- queue, events filed, accepted times -/
def queueOf : Res → List ℚ × List ℚ × List ℚ
  | .running s => (s.eq, s.filed, s.accepts.reverse)
  | .ended s => (s.eq, s.filed, s.accepts.reverse)
  | .crashed => ([], [], [])

/-- **C17 fails** likewise for an event: filed at 1, accepted times 0, 2, 7: gone from the queue without having been simulated. -/
theorem event_lost : queueOf (run ⟨1, 5, 0, 20, 20, 2, 1000, 1000⟩ [exBad, exGood, exGood] (start ⟨1, 5, 0, 20, 20, 2, 1000, 1000⟩ 0 [1] exGood)) =
    ([], [1], [0, 2, 7]) := by decide +kernel

/-- With `trstepshrink` above 4 one failure of a *two* tick step is enough: the step is rounded to 0, trapped, and meets the
user's time (here 6) without knowing it; no more output follows. -/
theorem strobe_lost_shrink : logOf (run ⟨1, 2, 0, 20, 3, 8, 1000, 1000⟩ (exGood :: exGood :: exGood :: exBad :: List.replicate 20 exGood)
      (start ⟨1, 2, 0, 20, 3, 8, 1000, 1000⟩ 0 [] exGood)) =
    some (true, [0, 1, 3, 5, 7, 8, 9, 10, 11, 12, 13, 14, 15, 16, 17, 18, 19, 20, 21], [0, 3]) := by decide +kernel

/-- **C18, undefined behaviour.**  With `dtmax` below half a tick the second step divides by zero. -/
theorem small_dtmax_crashes : logOf (run ⟨1, 1/4, 0, 100, 10, 2, 1000, 1000⟩ [exGood, exGood] (start ⟨1, 1/4, 0, 100, 10, 2, 1000, 1000⟩ 0 [] exGood)) = none := by
  decide +kernel

end Gnucap.Trans
