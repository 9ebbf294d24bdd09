import Verif.TransModel
import Mathlib.Tactic.Linarith
import Mathlib.Tactic.NormNum
import Mathlib.Tactic.FieldSimp
import Mathlib.Tactic.Ring
import Mathlib.Tactic.Positivity

/-! # Lemmas about the step control -/
namespace Gnucap.Trans

/-! ## rounding -/

theorem rnd_int (n : ℤ) : rnd (n : ℚ) = n := by
  unfold rnd
  split
  · rw [Int.floor_eq_iff]; constructor <;> linarith
  · rw [Int.ceil_eq_iff]; constructor <;> linarith

theorem rnd_lo (x : ℚ) : x - 1/2 ≤ rnd x := by
  unfold rnd
  split
  · have := Int.lt_floor_add_one (x + 1/2); push_cast at this ⊢; linarith
  · exact Int.le_ceil _

theorem rnd_hi (x : ℚ) : (rnd x : ℚ) ≤ x + 1/2 := by
  unfold rnd
  split
  · exact Int.floor_le _
  · have := Int.ceil_lt_add_one (x - 1/2); linarith

theorem rnd_mono {x y : ℚ} (h : x ≤ y) : rnd x ≤ rnd y := by
  unfold rnd
  split <;> split
  · exact Int.floor_mono (by linarith)
  · rename_i h1 h2; exact absurd (le_trans h1 h) h2
  · rename_i h1 h2
    have a : ⌈x - 1/2⌉ ≤ 0 := by rw [Int.ceil_le]; push_cast; linarith [not_le.mp h1]
    have b : 0 ≤ ⌊y + 1/2⌋ := by rw [Int.le_floor]; push_cast; linarith
    omega
  · exact Int.ceil_mono (by linarith)

theorem le_rnd {n : ℤ} {x : ℚ} (h : (n : ℚ) ≤ x) : n ≤ rnd x := by
  have := rnd_mono h; rwa [rnd_int] at this

theorem rnd_le {n : ℤ} {x : ℚ} (h : x ≤ (n : ℚ)) : rnd x ≤ n := by
  have := rnd_mono h; rwa [rnd_int] at this

theorem rnd_lt {n : ℤ} {x : ℚ} (h : x < (n : ℚ) - 1/2) : rnd x < n := by
  have := rnd_hi x
  have h2 : (rnd x : ℚ) < n := by linarith
  exact_mod_cast h2

variable {D : ℚ}

theorem tick_grid (hD : 0 < D) (n : ℤ) : tick D (n * D) = n := by
  unfold tick
  rw [mul_div_assoc, div_self (ne_of_gt hD), mul_one, rnd_int]

theorem tick_one (hD : 0 < D) : tick D D = 1 := by
  have := tick_grid hD 1; simpa using this

theorem tick_mono (hD : 0 < D) {x y : ℚ} (h : x ≤ y) : tick D x ≤ tick D y :=
  rnd_mono (div_le_div_of_nonneg_right h (le_of_lt hD))

theorem le_tick (hD : 0 < D) {n : ℤ} {x : ℚ} (h : n * D ≤ x) : n ≤ tick D x := by
  have := tick_mono hD h; rwa [tick_grid hD] at this

theorem tick_le (hD : 0 < D) {n : ℤ} {x : ℚ} (h : x ≤ n * D) : tick D x ≤ n := by
  have := tick_mono hD h; rwa [tick_grid hD] at this

theorem tick_lt (hD : 0 < D) {n : ℤ} {x : ℚ} (h : x < (n - 1/2) * D) : tick D x < n := by
  unfold tick
  apply rnd_lt
  rw [div_lt_iff₀ hD]; exact h

theorem tick_lo (hD : 0 < D) (x : ℚ) : x - D / 2 ≤ tick D x * D := by
  have := rnd_lo (x / D)
  have h2 : (x / D - 1/2) * D ≤ rnd (x / D) * D := mul_le_mul_of_nonneg_right this (le_of_lt hD)
  have h3 : (x / D - 1/2) * D = x - D/2 := by field_simp
  unfold tick; linarith

theorem tick_hi (hD : 0 < D) (x : ℚ) : tick D x * D ≤ x + D / 2 := by
  have := rnd_hi (x / D)
  have h2 : rnd (x / D) * D ≤ (x / D + 1/2) * D := mul_le_mul_of_nonneg_right this (le_of_lt hD)
  have h3 : (x / D + 1/2) * D = x + D/2 := by field_simp
  unfold tick; linarith

theorem rnd_succ (x : ℚ) : rnd x + 1 ≤ rnd (x + 1) := by
  unfold rnd
  have e1 : x + 1 + 1/2 = (x + 1/2) + ((1 : ℤ) : ℚ) := by push_cast; ring
  have e2 : x + 1 - 1/2 = (x - 1/2) + ((1 : ℤ) : ℚ) := by push_cast; ring
  split <;> split
  · rw [e1, Int.floor_add_intCast]
  · rename_i h1 h2; exact absurd (by linarith) h2
  · rename_i h1 h2
    rw [e1, Int.floor_add_intCast]
    have : ⌈x - 1/2⌉ ≤ ⌊x + 1/2⌋ := by
      rw [Int.ceil_le]
      have := Int.lt_floor_add_one (x + 1/2)
      linarith
    omega
  · rw [e2, Int.ceil_add_intCast]

/-- a time later by at least one tick has a later tick -/
theorem tick_add (hD : 0 < D) (x : ℚ) {y : ℚ} (h : D ≤ y) : tick D x + 1 ≤ tick D (x + y) := by
  have h1 : tick D (x + D) ≤ tick D (x + y) := tick_mono hD (by linarith)
  have h2 : tick D x + 1 ≤ tick D (x + D) := by
    unfold tick
    have e : (x + D) / D = x / D + 1 := by field_simp
    rw [e]; exact rnd_succ _
  omega

/-! ## candidates -/

/-- Shape kept by every candidate: `newtime = reftime + new_dt`. -/
def Shape (ref : ℤ) (a : Cand) : Prop := a.newtime = ref + a.dt

theorem shape_tryTime {ref x : ℤ} {ctl : ℕ} {a : Cand} (h : Shape ref a) : Shape ref (tryTime ref x ctl a) := by
  unfold tryTime Shape at *; split
  · simp
  · exact h

theorem shape_tryDt {ref x : ℤ} {ctl : ℕ} {a : Cand} (h : Shape ref a) : Shape ref (tryDt ref x ctl a) := by
  unfold tryDt Shape at *; split
  · simp
  · exact h

theorem shape_skip (c : Cfg) (s : St) (ref : ℤ) : Shape ref (candSkip c s ref) := by
  unfold candSkip candAlmost
  refine shape_tryDt (shape_tryTime (shape_tryTime ?_))
  unfold candFixed
  have h : Shape ref (⟨tick c.dtmin s.user, tick c.dtmin s.user - ref, 1⟩ : Cand) := by simp [Shape]
  cases s.eq with
  | nil => exact h
  | cons e q => exact shape_tryTime h

theorem shape_limit (c : Cfg) (s : St) (ref time0 old : ℤ) (a : Cand) (h : Shape ref a) (h0 : old = 0 → ref = time0) :
    Shape ref (candLimit c s ref time0 old a) := by
  unfold candLimit
  split
  · rename_i ho; rw [← h0 ho]; exact shape_tryDt h
  · split
    · refine shape_tryDt ?_
      split
      · refine shape_tryDt ?_
        split
        · exact h
        · exact shape_tryDt h
      · split
        · exact h
        · exact shape_tryDt h
    · exact h

theorem shape_smooth {c : Cfg} {s : St} {ref time0 old fixed almost : ℤ} {a b : Cand} (h : Shape ref a)
    (hs : candSmooth c s ref time0 old fixed almost a = some b) : Shape ref b := by
  unfold candSmooth at hs
  split at hs
  · cases hs; exact h
  split at hs
  · cases hs; exact h
  split at hs
  · cases hs; exact h
  split at hs
  · cases hs; exact h
  split at hs
  · cases hs; exact h
  split at hs
  · simp only [Option.some.injEq] at hs; subst hs; simp [Shape]
  split at hs
  · exact absurd hs (by simp)
  · simp only [Option.some.injEq] at hs; subst hs; simp [Shape]

theorem floor_bounds (t k : ℤ) (hk : 0 < k) :
    ⌊(t : ℚ) / (k : ℚ)⌋ * k ≤ t ∧ t < (⌊(t : ℚ) / (k : ℚ)⌋ + 1) * k := by
  have hkq : (0 : ℚ) < k := by exact_mod_cast hk
  have h1 := Int.floor_le ((t : ℚ) / k)
  have h2 := Int.lt_floor_add_one ((t : ℚ) / k)
  rw [le_div_iff₀ hkq] at h1
  rw [div_lt_iff₀ hkq] at h2
  constructor
  · exact_mod_cast h1
  · exact_mod_cast h2

/-- What is wanted of a candidate: a positive step, not beyond the user's request `U`, labelled `scUSER` iff it is that. -/
structure Good (ref U : ℤ) (a : Cand) : Prop where
  shape : a.newtime = ref + a.dt
  pos : 1 ≤ a.dt
  le : a.newtime ≤ U
  ctl : a.control = 1 ↔ a.newtime = U
  lo : 1 ≤ a.control

theorem good_tryTime {ref U x : ℤ} {ctl : ℕ} {a : Cand} (h : Good ref U a) (hx : ref < x) (hc : 1 < ctl) :
    Good ref U (tryTime ref x ctl a) ∧ (tryTime ref x ctl a).newtime = min a.newtime x := by
  unfold tryTime
  by_cases hl : x < a.newtime
  · rw [if_pos hl]
    have := h.le
    exact ⟨⟨by simp, by simp; omega, by simp; omega, by simp; omega, by simp; omega⟩, by simp; omega⟩
  · rw [if_neg hl]; exact ⟨h, by omega⟩

theorem good_tryDt {ref U d : ℤ} {ctl : ℕ} {a : Cand} (h : Good ref U a) (hd : 1 ≤ d) (hc : 1 < ctl) :
    Good ref U (tryDt ref d ctl a) ∧ (tryDt ref d ctl a).newtime = min a.newtime (ref + d) := by
  have := h.le
  have hs := h.shape
  unfold tryDt
  by_cases hl : d < a.dt
  · rw [if_pos hl]
    exact ⟨⟨by simp, by simp; omega, by simp; omega, by simp; omega, by simp; omega⟩, by simp; omega⟩
  · rw [if_neg hl]; exact ⟨h, by omega⟩

/-- the configurations for which the step control works: see the witnesses in TransProps for what happens otherwise -/
structure Sane (c : Cfg) : Prop where
  dtmin : 0 < c.dtmin
  dtmax : c.dtmin ≤ c.dtmax
  strobe : c.dtmin ≤ c.tstrobe
  shrink : 4/3 < c.shrink ∧ c.shrink ≤ 4
  hold : 1/2 ≤ c.hold
  grow : 1/2 ≤ c.grow

section
variable {c : Cfg} {s : St}

theorem good_fixed {ref : ℤ} (hu : ref < tick c.dtmin s.user) (he : ∀ t ∈ s.eq, ref < tick c.dtmin t) :
    Good ref (tick c.dtmin s.user) (candFixed c s ref) := by
  have h : Good ref (tick c.dtmin s.user) (⟨tick c.dtmin s.user, tick c.dtmin s.user - ref, 1⟩ : Cand) :=
    ⟨by simp, by simp; omega, le_refl _, by simp, le_refl _⟩
  unfold candFixed
  cases hq : s.eq with
  | nil => exact h
  | cons e q => exact (good_tryTime h (he e (by rw [hq]; simp)) (by omega)).1

theorem fixed_le_user (c : Cfg) (s : St) (ref : ℤ) : (candFixed c s ref).newtime ≤ tick c.dtmin s.user := by
  unfold candFixed
  cases s.eq with
  | nil => exact le_refl _
  | cons e q => simp only [tryTime]; split <;> simp <;> omega

theorem fixed_le_event (hD : 0 < c.dtmin) (hs : s.eq.Pairwise (· ≤ ·)) (ref : ℤ) (t : ℚ) (ht : t ∈ s.eq) :
    (candFixed c s ref).newtime ≤ tick c.dtmin t := by
  unfold candFixed
  cases hq : s.eq with
  | nil => rw [hq] at ht; cases ht
  | cons e q =>
    rw [hq] at ht hs
    have h1 : tick c.dtmin e ≤ tick c.dtmin t := by
      rcases List.mem_cons.mp ht with h | h
      · rw [h]
      · exact tick_mono hD (List.rel_of_pairwise_cons hs h)
    simp only [tryTime]; split <;> simp <;> omega

theorem tick_dtmax (h : Sane c) : 1 ≤ tick c.dtmin c.dtmax :=
  le_tick h.dtmin (by have := h.dtmax; simpa using this)

theorem good_almost {ref : ℤ} (hu : ref < tick c.dtmin s.user) (he : ∀ t ∈ s.eq, ref < tick c.dtmin t)
    (ha : ref < tick c.dtmin s.amb) : Good ref (tick c.dtmin s.user) (candAlmost c s ref) ∧
      (candAlmost c s ref).newtime = min (candFixed c s ref).newtime (tick c.dtmin s.amb) :=
  good_tryTime (good_fixed hu he) ha (by omega)

theorem good_skip (h : Sane c) {ref : ℤ} (hu : ref < tick c.dtmin s.user) (he : ∀ t ∈ s.eq, ref < tick c.dtmin t)
    (ha : ref < tick c.dtmin s.amb) (hr : ref < tick c.dtmin s.err) :
    Good ref (tick c.dtmin s.user) (candSkip c s ref) ∧ (candSkip c s ref).newtime ≤ (candAlmost c s ref).newtime ∧
      (candSkip c s ref).newtime ≤ tick c.dtmin s.err := by
  have g1 := good_almost hu he ha
  have g2 := good_tryTime g1.1 hr (ctl := 6) (by omega)
  have g3 := good_tryDt g2.1 (tick_dtmax h) (ctl := 3) (by omega)
  refine ⟨g3.1, ?_, ?_⟩
  · show (tryDt _ _ _ _).newtime ≤ _
    rw [g3.2, g2.2]; omega
  · show (tryDt _ _ _ _).newtime ≤ _
    rw [g3.2, g2.2]; omega

theorem half_le_rnd {x : ℚ} (h : 1/2 ≤ x) : 1 ≤ rnd x := by
  unfold rnd
  rw [if_pos (by linarith), Int.le_floor]
  push_cast; linarith

theorem good_limit (h : Sane c) {ref U time0 old : ℤ} {a : Cand} (g : Good ref U a) (h0 : old = 0 → ref = time0)
    (hc : 0 < old → s.converged = false → 2 ≤ old) (ho : 0 ≤ old) :
    Good ref U (candLimit c s ref time0 old a) ∧ (candLimit c s ref time0 old a).newtime ≤ a.newtime ∧
      (0 < old → s.converged = false → (candLimit c s ref time0 old a).newtime < ref + old) := by
  unfold candLimit
  by_cases h1 : old = 0
  · rw [if_pos h1, ← h0 h1]
    have : 1 ≤ tick c.dtmin (max (c.dtmax / 100) c.dtmin) := le_tick h.dtmin (by simp)
    have r := good_tryDt g this (ctl := 9) (by omega)
    exact ⟨r.1, by rw [r.2]; omega, fun hp => by omega⟩
  rw [if_neg h1, if_pos (by omega)]
  have hoq : (1 : ℚ) ≤ old := by exact_mod_cast (by omega : 1 ≤ old)
  have r1 : Good ref U (if s.converged then a else tryDt ref (rnd (old / c.shrink)) 4 a) ∧
      (if s.converged then a else tryDt ref (rnd (old / c.shrink)) 4 a).newtime ≤ a.newtime ∧
      (s.converged = false → (if s.converged then a else tryDt ref (rnd (old / c.shrink)) 4 a).newtime < ref + old) := by
    cases hcv : s.converged with
    | true => exact ⟨g, le_refl _, by simp⟩
    | false =>
      have h2 := hc (by omega) hcv
      have hoq2 : (2 : ℚ) ≤ old := by exact_mod_cast h2
      have hs := h.shrink
      have hsp : 0 < c.shrink := by linarith [hs.1]
      have a1 : 1 ≤ rnd (old / c.shrink) := by
        apply half_le_rnd
        rw [le_div_iff₀ hsp]; linarith [hs.2]
      have a2 : rnd (old / c.shrink) < old := by
        have := rnd_hi (old / c.shrink)
        have b : (old : ℚ) / c.shrink < old - 1/2 := by
          rw [div_lt_iff₀ hsp]; nlinarith [hs.1]
        have : (rnd (old / c.shrink) : ℚ) < old := by linarith
        exact_mod_cast this
      have r := good_tryDt g a1 (ctl := 4) (by omega)
      simp only [Bool.false_eq_true, if_false]
      exact ⟨r.1, by rw [r.2]; omega, fun _ => by rw [r.2]; omega⟩
  generalize (if s.converged then a else tryDt ref (rnd (old / c.shrink)) 4 a) = a1 at r1 ⊢
  have r2 : Good ref U (if s.exceeds then tryDt ref (rnd (old * c.hold)) 5 a1 else a1) ∧
      (if s.exceeds then tryDt ref (rnd (old * c.hold)) 5 a1 else a1).newtime ≤ a1.newtime := by
    split
    · have := half_le_rnd (x := old * c.hold) (by nlinarith [h.hold])
      have r := good_tryDt r1.1 this (ctl := 5) (by omega)
      exact ⟨r.1, by rw [r.2]; omega⟩
    · exact ⟨r1.1, le_refl _⟩
  generalize hA : (if s.exceeds then tryDt ref (rnd (old * c.hold)) 5 a1 else a1) = a2 at r2
  have := half_le_rnd (x := old * c.grow) (by nlinarith [h.grow])
  have r := good_tryDt r2.1 this (ctl := 8) (by omega)
  simp only [hA]
  refine ⟨r.1, by rw [r.2]; have := r1.2.1; have := r2.2; omega, fun _ hcv => ?_⟩
  rw [r.2]; have := r1.2.2 hcv; have := r2.2; omega

/-- smoothing keeps a good candidate good, never past the nearest fixed time; it leaves a backward step alone -/
theorem good_smooth (hD : 0 < c.dtmin) {ref time0 old fixed almost : ℤ} {a : Cand} (g : Good ref (tick c.dtmin s.user) a)
    (ha : a.newtime ≤ almost) (hf : almost ≤ fixed) (hfu : fixed ≤ tick c.dtmin s.user) (ho : 0 ≤ old) (hb : ref = time0 ∨ a.newtime < time0) :
    ∃ b, candSmooth c s ref time0 old fixed almost a = some b ∧ Good ref (tick c.dtmin s.user) b ∧ b.newtime ≤ almost ∧
      (a.newtime < time0 → b = a) := by
  unfold candSmooth
  rw [if_neg (by omega)]
  by_cases h1 : a.newtime = tick c.dtmin s.user
  · rw [if_pos h1]; exact ⟨a, rfl, g, ha, fun _ => rfl⟩
  rw [if_neg h1]
  by_cases h2 : a.newtime = fixed
  · rw [if_pos h2]; exact ⟨a, rfl, g, ha, fun _ => rfl⟩
  rw [if_neg h2]
  by_cases h3 : a.newtime = almost
  · rw [if_pos h3]; exact ⟨a, rfl, g, ha, fun _ => rfl⟩
  rw [if_neg h3]
  by_cases h4 : a.newtime < time0
  · rw [if_pos h4]; exact ⟨a, rfl, g, ha, fun _ => rfl⟩
  rw [if_neg h4]
  have gs := g.shape
  have gp := g.pos
  have gl := g.le
  have gc := g.ctl
  have glo := g.lo
  have hctl : a.control ≠ 1 := fun h => h1 (gc.mp h)
  by_cases h5 : (rnd (old * (8/10)) ≤ a.dt ∧ a.dt ≤ rnd (old * (15/10))) ∧ ref + old ≤ almost
  · rw [if_pos h5]
    have hop : 1 ≤ old := by
      by_contra hn
      have : old = 0 := by omega
      have h6 := h5.1.2
      rw [this] at h6
      have : rnd (((0 : ℤ) : ℚ) * (15/10)) = 0 := by
        have := rnd_int 0
        simpa using this
      omega
    refine ⟨_, rfl, ⟨rfl, hop, by simp; omega, ?_, ?_⟩, h5.2, fun h => absurd h h4⟩
    · simp only
      rw [if_neg (by omega)]
      by_cases h6 : ref + old = tick c.dtmin s.user
      · simp [h6]
      · rw [if_neg h6]
        split
        · simp [h6]
        · split
          · simp [h6]
          · simp [h6, hctl]
    · simp only
      split
      · exact glo
      · split
        · omega
        · split
          · omega
          · split <;> omega
  rw [if_neg h5, if_neg (by omega)]
  simp only [tick_one hD]
  have ht : a.dt ≤ fixed - ref := by omega
  generalize htt : fixed - ref = target at ht ⊢
  have hst : target.tdiv a.dt = target / a.dt := Int.tdiv_eq_ediv_of_nonneg (by omega)
  rw [hst]
  have hlt : target < (target / a.dt + 1) * a.dt := Int.lt_ediv_add_one_mul_self target (by omega)
  have hs1 : 1 ≤ target / a.dt := by
    rw [Int.le_ediv_iff_mul_le (by omega)]; omega
  generalize target / a.dt = k at hlt hs1 ⊢
  have f1 := floor_bounds target (k + 1) (by omega)
  have f2 := floor_bounds target (k + 2) (by omega)
  generalize ⌊(target : ℚ) / ((k + 1 : ℤ) : ℚ)⌋ = x at f1 ⊢
  generalize ⌊(target : ℚ) / ((k + 2 : ℤ) : ℚ)⌋ = y at f2 ⊢
  have hx : x < a.dt := by
    by_contra hn
    have : a.dt * (k + 1) ≤ x * (k + 1) := Int.mul_le_mul_of_nonneg_right (by omega) (by omega)
    have e : (k + 1) * a.dt = a.dt * (k + 1) := Int.mul_comm _ _
    omega
  have hx0 : 0 ≤ x := by
    by_contra hn
    have : (x + 1) * (k + 1) ≤ 0 := Int.mul_nonpos_of_nonpos_of_nonneg (by omega) (by omega)
    omega
  have hy : y < a.dt := by
    by_contra hn
    have h7 : a.dt * (k + 2) ≤ y * (k + 2) := Int.mul_le_mul_of_nonneg_right (by omega) (by omega)
    have e : a.dt * (k + 2) = (k + 1) * a.dt + a.dt := by ring
    omega
  have key : ∀ d : ℤ, 1 ≤ d → d ≤ a.dt → Good ref (tick c.dtmin s.user) (⟨ref + d, d, a.control⟩ : Cand) ∧ ref + d ≤ almost := by
    intro d hd1 hd2
    exact ⟨⟨rfl, hd1, by simp; omega, by simp [hctl]; omega, glo⟩, by omega⟩
  suffices hd : ∀ d : ℤ, d = (if a.dt * k = target then a.dt else if x * (k + 1) = target then x
      else if y * (k + 2) = target then y else x + 1) → 1 ≤ d ∧ d ≤ a.dt by
    have hd' := hd _ rfl
    have := key _ hd'.1 hd'.2
    exact ⟨_, rfl, this.1, this.2, fun h => absurd h h4⟩
  intro d hd
  by_cases c1 : a.dt * k = target
  · rw [if_pos c1] at hd; omega
  rw [if_neg c1] at hd
  by_cases c2 : x * (k + 1) = target
  · rw [if_pos c2] at hd
    have : x ≠ 0 := fun h => by rw [h] at c2; omega
    omega
  rw [if_neg c2] at hd
  by_cases c3 : y * (k + 2) = target
  · rw [if_pos c3] at hd
    have : 0 < y := by
      by_contra hn
      have : y * (k + 2) ≤ 0 := Int.mul_nonpos_of_nonpos_of_nonneg (by omega) (by omega)
      omega
    omega
  rw [if_neg c3] at hd
  omega

end

end Gnucap.Trans
