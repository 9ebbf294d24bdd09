import Verif.SweepModel
import Mathlib.Analysis.SpecialFunctions.Log.Base
import Mathlib.Tactic.Linarith
import Mathlib.Tactic.Ring
import Mathlib.Tactic.FieldSimp
import Mathlib.Tactic.NormNum
import Mathlib.Tactic.Positivity

/-!
# DC and AC sweeps visit the requested points (C35, C36)
-/
set_option linter.unusedSectionVars false
namespace Gnucap.Sweep

/-! ### running a level -/

theorem doWhile_path {σ ω : Type _} (out : σ → ω) (nx : σ → Bool × σ) (N : ℕ) (p : ℕ → σ)
    (h : ∀ i, i < N → nx (p i) = (true, p (i + 1))) (he : (nx (p N)).1 = false) (fuel : ℕ) (hf : N < fuel) :
    doWhile (fun s => some (s, [out s])) nx fuel (p 0) = some ((nx (p N)).2, (List.range (N + 1)).map fun i => out (p i)) := by
  induction N generalizing p fuel with
  | zero =>
    obtain ⟨f, rfl⟩ : ∃ f, fuel = f + 1 := ⟨fuel - 1, by omega⟩
    simp [doWhile, he]
  | succ N ih =>
    obtain ⟨f, rfl⟩ : ∃ f, fuel = f + 1 := ⟨fuel - 1, by omega⟩
    have h0 := h 0 (by omega)
    have := ih (fun i => p (i + 1)) (fun i hi => h (i + 1) (by omega)) he f (by omega)
    simp only [Nat.zero_add] at this
    simp only [doWhile, h0, if_true, this, Option.map_some]
    rw [List.range_succ_eq_map (n := N + 1)]
    simp [List.map_map, Function.comp_def]

theorem whileNext_path {σ : Type _} (nx : σ → Bool × σ) (N : ℕ) (p : ℕ → σ)
    (h : ∀ i, i < N → nx (p i) = (true, p (i + 1))) (he : (nx (p N)).1 = false) (fuel : ℕ) (hf : N < fuel) :
    whileNext nx fuel (p 0) = some (nx (p N)).2 := by
  induction N generalizing p fuel with
  | zero =>
    obtain ⟨f, rfl⟩ : ∃ f, fuel = f + 1 := ⟨fuel - 1, by omega⟩
    simp [whileNext, he]
  | succ N ih =>
    obtain ⟨f, rfl⟩ : ∃ f, fuel = f + 1 := ⟨fuel - 1, by omega⟩
    have h0 := h 0 (by omega)
    have := ih (fun i => p (i + 1)) (fun i hi => h (i + 1) (by omega)) he f (by omega)
    simp only [Nat.zero_add] at this
    simp only [whileNext, h0, if_true, this]

/-- What `next` does on a level: forward over `fw 0 … fw N`, backward over `bw 0 … bw N`. -/
structure Track (tol : ℝ) (l : Level) (N : ℕ) (fw bw : ℕ → ℝ) : Prop where
  fw0 : fw 0 = l.start
  bw0 : bw 0 = fw N
  forward : ∀ i, i < N → next tol l ⟨fw i, false⟩ = (true, ⟨fw (i + 1), false⟩)
  last : l.loop = false → next tol l ⟨fw N, false⟩ = (false, ⟨fw N, false⟩)
  turn : l.loop = true → next tol l ⟨fw N, false⟩ = next tol l ⟨fw N, true⟩
  backward : ∀ i, i < N → next tol l ⟨bw i, true⟩ = (true, ⟨bw (i + 1), true⟩)
  bottom : next tol l ⟨bw N, true⟩ = (false, ⟨bw N, true⟩)

/-- the values up, and the values down without the top one -/
def ups (N : ℕ) (fw : ℕ → ℝ) : List ℝ := (List.range (N + 1)).map fw
def downs (N : ℕ) (bw : ℕ → ℝ) : List ℝ := (List.range N).map fun i => bw (i + 1)

theorem Track.plain {tol l N fw bw} (t : Track tol l N fw bw) (hl : l.loop = false) (hr : l.reverseIn = false)
    (fuel : ℕ) (hf : N < fuel) : visits tol l fuel = some (ups N fw) := by
  have := doWhile_path (fun s : St => s.val) (next tol l) N (fun i => ⟨fw i, false⟩) t.forward
    (by rw [t.last hl]) fuel hf
  simp only [t.fw0] at this
  simp [visits, first, hr, this, ups]

theorem Track.looped {tol l N fw bw} (t : Track tol l N fw bw) (hl : l.loop = true) (hr : l.reverseIn = false)
    (fuel : ℕ) (hf : N + N < fuel) : visits tol l fuel = some (ups N fw ++ downs N bw) := by
  have hN : (if N ≤ N then (⟨fw N, false⟩ : St) else ⟨bw (N - N), true⟩) = ⟨fw N, false⟩ := by simp
  have := doWhile_path (fun s : St => s.val) (next tol l) (N + N)
    (fun i => if i ≤ N then ⟨fw i, false⟩ else ⟨bw (i - N), true⟩) ?_ ?_ fuel hf
  · simp only [t.fw0, Nat.zero_le, if_true] at this
    simp only [visits, first, hr, Bool.false_eq_true, if_false, this, Option.map_some, Option.some.injEq]
    rw [show N + N + 1 = (N + 1) + N by omega, List.range_add, List.map_append]
    congr 1
    · apply List.map_congr_left
      intro i hi
      have : i ≤ N := by have := List.mem_range.mp hi; omega
      simp [this]
    · rw [List.map_map]
      apply List.map_congr_left
      intro i hi
      have : ¬ (N + 1 + i ≤ N) := by omega
      simp only [Function.comp, this, if_false]
      congr 1; omega
  · intro i hi
    by_cases h1 : i < N
    · have : i ≤ N := by omega
      have h2 : i + 1 ≤ N := by omega
      simp only [this, h2, if_true, t.forward i h1]
    · by_cases h2 : i = N
      · subst h2
        have h3 : ¬ (i + 1 ≤ i) := by omega
        have := t.backward 0 (by omega)
        rw [t.bw0] at this
        simp only [le_refl, h3, if_true, if_false, t.turn hl, this]
        congr 3; omega
      · have h3 : ¬ (i ≤ N) := by omega
        have h4 : ¬ (i + 1 ≤ N) := by omega
        have := t.backward (i - N) (by omega)
        simp only [h3, h4, if_false, this]
        congr 3; omega
  · by_cases h0 : N = 0
    · subst h0
      have := t.bottom
      rw [t.bw0] at this
      simp [t.turn hl, this]
    · have h3 : ¬ (N + N ≤ N) := by omega
      simp only [h3, if_false, Nat.add_sub_cancel, t.bottom]

theorem Track.reversed {tol l N fw bw} (t : Track tol l N fw bw) (hl : l.loop = false) (hr : l.reverseIn = true)
    (fuel : ℕ) (hf : N < fuel) : visits tol l fuel = some (if N = 0 then [l.start] else downs N bw) := by
  have h1 := whileNext_path (next tol l) N (fun i => ⟨fw i, false⟩) t.forward (by rw [t.last hl]) fuel hf
  simp only [t.fw0, t.last hl] at h1
  by_cases h0 : N = 0
  · subst h0
    have h2 := t.bottom
    rw [t.bw0, t.fw0] at h2
    rw [t.fw0] at h1
    have := doWhile_path (fun s : St => s.val) (next tol l) 0 (fun _ => ⟨l.start, true⟩) (by omega)
      (by rw [h2]) fuel hf
    simp [visits, first, hr, h1, h2, this]
  · obtain ⟨M, rfl⟩ : ∃ M, N = M + 1 := ⟨N - 1, by omega⟩
    have h2 := t.backward 0 (by omega)
    rw [t.bw0] at h2
    have := doWhile_path (fun s : St => s.val) (next tol l) M (fun i => ⟨bw (i + 1), true⟩)
      (fun i hi => t.backward (i + 1) (by omega)) (by rw [t.bottom]) fuel (by omega)
    simp only [Nat.zero_add] at this h2
    simp [visits, first, hr, h1, h2, this, downs]

theorem Track.reversed_loop {tol l N fw bw} (t : Track tol l N fw bw) (hl : l.loop = true) (hr : l.reverseIn = true)
    (fuel : ℕ) (hf : N + N < fuel) : visits tol l fuel = some [bw N] := by
  have h1 := whileNext_path (next tol l) (N + N)
    (fun i => if i ≤ N then ⟨fw i, false⟩ else ⟨bw (i - N), true⟩) ?_ ?_ fuel hf
  · have e : (next tol l (if N + N ≤ N then ⟨fw (N + N), false⟩ else ⟨bw (N + N - N), true⟩)).2 = ⟨bw N, true⟩ := by
      by_cases h0 : N = 0
      · subst h0
        have := t.bottom
        rw [t.bw0] at this
        simp [t.turn hl, this, t.bw0]
      · have h3 : ¬ (N + N ≤ N) := by omega
        simp only [h3, if_false, Nat.add_sub_cancel, t.bottom]
    simp only [e, t.fw0, Nat.zero_le, if_true] at h1
    have := doWhile_path (fun s : St => s.val) (next tol l) 0 (fun _ => ⟨bw N, true⟩) (by omega)
      (by rw [t.bottom]) fuel (by omega)
    simp [visits, first, hr, h1, t.bottom, this]
  · intro i hi
    by_cases h1 : i < N
    · have : i ≤ N := by omega
      have h2 : i + 1 ≤ N := by omega
      simp only [this, h2, if_true, t.forward i h1]
    · by_cases h2 : i = N
      · subst h2
        have h3 : ¬ (i + 1 ≤ i) := by omega
        have := t.backward 0 (by omega)
        rw [t.bw0] at this
        simp only [le_refl, h3, if_true, if_false, t.turn hl, this]
        congr 3; omega
      · have h3 : ¬ (i ≤ N) := by omega
        have h4 : ¬ (i + 1 ≤ N) := by omega
        have := t.backward (i - N) (by omega)
        simp only [h3, h4, if_false, this]
        congr 3; omega
  · by_cases h0 : N = 0
    · subst h0
      have := t.bottom
      rw [t.bw0] at this
      simp [t.turn hl, this]
    · have h3 : ¬ (N + N ≤ N) := by omega
      simp only [h3, if_false, Nat.add_sub_cancel, t.bottom]

/-! ### linear sweeps -/

/-- (specification) the length of the sweep in steps -/
noncomputable def span (l : Level) : ℝ := (l.stop - l.start) / l.step

/-- (specification) `x` is the `k`-th requested value, up to the rounding to zero -/
def Near (tol : ℝ) (l : Level) (k : ℕ) (x : ℝ) : Prop := |x - (l.start + k * l.step)| ≤ tol * |l.step|

/-- (specification) `N` is the number of the last requested value not more than a tenth of a step past `stop` (up to the
rounding to zero) -/
def LastIndex (tol : ℝ) (l : Level) (N : ℕ) : Prop := (N : ℝ) ≤ span l + 1 / 10 + tol ∧ span l + 1 / 10 < N + 1 + tol

/-- no requested value is so small that it is rounded to zero without being zero -/
def NoSnap (tol : ℝ) (l : Level) : Prop := ∀ k : ℤ, |l.start + k * l.step| < |l.step * tol| → l.start + k * l.step = 0

/-- what is known of a value at position `k` -/
def Inv (tol : ℝ) (l : Level) (k : ℤ) (x : ℝ) : Prop :=
  ∃ d : ℝ, |d| ≤ tol * |l.step| ∧ x = l.start + k * l.step + d ∧ (d = 0 ∨ ∃ j : ℤ, x = j * l.step) ∧ (NoSnap tol l → d = 0)

theorem inv_move {tol : ℝ} {l : Level} (h0 : 0 ≤ tol) (h1 : tol ≤ 1 / 20) (hs : l.step ≠ 0) {k : ℤ} {x : ℝ}
    (h : Inv tol l k x) (c : ℤ) : Inv tol l (k + c) (fixzero tol (x + c * l.step) l.step) := by
  obtain ⟨d, hd, hx, hor, hns⟩ := h
  have hpos : 0 < |l.step| := abs_pos.mpr hs
  unfold fixzero
  split
  · rename_i hlt
    rw [abs_mul, abs_of_nonneg h0] at hlt
    rcases hor with rfl | ⟨j, hj⟩
    · refine ⟨-(l.start + (k + c : ℤ) * l.step), ?_, by ring, Or.inr ⟨0, by simp⟩, ?_⟩
      · rw [abs_neg]
        have : l.start + ((k + c : ℤ) : ℝ) * l.step = x + c * l.step := by rw [hx]; push_cast; ring
        rw [this]; nlinarith
      · intro hn
        have := hn (k + c) (by
          have : l.start + ((k + c : ℤ) : ℝ) * l.step = x + c * l.step := by rw [hx]; push_cast; ring
          rw [this, abs_mul, abs_of_nonneg h0]; exact hlt)
        rw [this]; simp
    · have e : x + c * l.step = ((j + c : ℤ) : ℝ) * l.step := by rw [hj]; push_cast; ring
      have : j + c = 0 := by
        rw [e, abs_mul] at hlt
        have h2 : |((j + c : ℤ) : ℝ)| < 1 := by
          by_contra hge
          have := mul_le_mul_of_nonneg_right (not_lt.mp hge) hpos.le
          nlinarith
        have h3 : |j + c| < 1 := by exact_mod_cast h2
        exact Int.abs_lt_one_iff.mp h3
      refine ⟨d, hd, ?_, Or.inr ⟨0, by simp⟩, hns⟩
      have e2 : x + c * l.step = 0 := by rw [e, this]; simp
      rw [← e2, hx]; push_cast; ring
  · refine ⟨d, hd, by rw [hx]; push_cast; ring, ?_, hns⟩
    rcases hor with rfl | ⟨j, hj⟩
    · exact Or.inl rfl
    · exact Or.inr ⟨j + c, by rw [hj]; push_cast; ring⟩

/-- the relative position -/
noncomputable def pos (l : Level) (x : ℝ) : ℝ := (x - l.start) / l.step

theorem inv_pos {tol : ℝ} {l : Level} (hs : l.step ≠ 0) {k : ℤ} {x : ℝ} (h : Inv tol l k x) : |pos l x - k| ≤ tol := by
  obtain ⟨d, hd, hx, -, -⟩ := h
  have hpos : 0 < |l.step| := abs_pos.mpr hs
  have : pos l x - k = d / l.step := by unfold pos; rw [hx]; field_simp; ring
  rw [this, abs_div, div_le_iff₀ hpos]; exact hd

theorem inOrder_pos {l : Level} (hs : l.step ≠ 0) (x : ℝ) :
    inOrder (l.start - l.step / 10) x (l.stop + l.step / 10) = true ↔
      (-(1 / 10) ≤ pos l x ∧ pos l x ≤ span l + 1 / 10) ∨ (span l + 1 / 10 ≤ pos l x ∧ pos l x ≤ -(1 / 10)) := by
  have e1 : x = l.start + pos l x * l.step := by unfold pos; field_simp; ring
  have e2 : l.stop = l.start + span l * l.step := by unfold span; field_simp; ring
  generalize pos l x = u at *
  generalize span l = L at *
  unfold inOrder
  rw [decide_eq_true_iff, e1, e2]
  rcases lt_or_gt_of_ne hs with h | h
  · constructor
    · rintro (⟨a, b⟩ | ⟨a, b⟩)
      · right; constructor <;> by_contra hc <;> nlinarith
      · left; constructor <;> by_contra hc <;> nlinarith
    · rintro (⟨a, b⟩ | ⟨a, b⟩)
      · right; constructor <;> nlinarith
      · left; constructor <;> nlinarith
  · constructor
    · rintro (⟨a, b⟩ | ⟨a, b⟩)
      · left; constructor <;> by_contra hc <;> nlinarith
      · right; constructor <;> by_contra hc <;> nlinarith
    · rintro (⟨a, b⟩ | ⟨a, b⟩)
      · left; constructor <;> nlinarith
      · right; constructor <;> nlinarith

/-- forward and backward values -/
noncomputable def walk (tol : ℝ) (l : Level) (c : ℤ) (x : ℝ) : ℕ → ℝ
  | 0 => x
  | k + 1 => fixzero tol (walk tol l c x k + c * l.step) l.step

theorem walk_inv {tol : ℝ} {l : Level} (h0 : 0 ≤ tol) (h1 : tol ≤ 1 / 20) (hs : l.step ≠ 0) (c : ℤ) {k : ℤ} {x : ℝ}
    (h : Inv tol l k x) (i : ℕ) : Inv tol l (k + c * i) (walk tol l c x i) := by
  induction i with
  | zero => simpa [walk] using h
  | succ i ih =>
    have := inv_move h0 h1 hs ih c
    have e : k + c * ((i + 1 : ℕ) : ℤ) = k + c * i + c := by push_cast; ring
    rw [e]; exact this

theorem inv_near {tol : ℝ} {l : Level} {k : ℕ} {x : ℝ} (h : Inv tol l k x) : Near tol l k x := by
  obtain ⟨d, hd, hx, -, -⟩ := h
  unfold Near
  rw [hx]; push_cast
  rw [add_sub_cancel_left]; exact hd

theorem inv_exact {tol : ℝ} {l : Level} (hn : NoSnap tol l) {k : ℕ} {x : ℝ} (h : Inv tol l k x) : x = l.start + k * l.step := by
  obtain ⟨d, hd, hx, -, h2⟩ := h
  rw [hx, h2 hn]; simp

theorem lin_track (tol : ℝ) (l : Level) (h0 : 0 ≤ tol) (h1 : tol ≤ 1 / 20) (hlin : l.lin = true) (hs : l.step ≠ 0)
    (hL : 0 ≤ span l) :
    ∃ (N : ℕ) (fw bw : ℕ → ℝ), Track tol l N fw bw ∧ LastIndex tol l N ∧
      (∀ i, i ≤ N → Inv tol l i (fw i)) ∧ (∀ i, i ≤ N → Inv tol l (N - i : ℕ) (bw i)) ∧
      (NoSnap tol l → N = ⌊span l + 1 / 10⌋₊) := by
  classical
  let fw := walk tol l 1 l.start
  have i0 : Inv tol l 0 l.start := ⟨0, by simp; positivity, by simp, Or.inl rfl, fun _ => rfl⟩
  have ifw : ∀ i : ℕ, Inv tol l i (fw i) := by
    intro i
    have := walk_inv h0 h1 hs 1 i0 i
    simpa using this
  have ok : ∀ i : ℕ, 1 ≤ i → (inOrder (l.start - l.step / 10) (fw i) (l.stop + l.step / 10) = true ↔ pos l (fw i) ≤ span l + 1 / 10) := by
    intro i hi
    rw [inOrder_pos hs]
    have hp := abs_le.mp (inv_pos hs (ifw i))
    have : (1 : ℝ) ≤ i := by exact_mod_cast hi
    push_cast at hp
    constructor
    · rintro (⟨_, b⟩ | ⟨_, b⟩)
      · exact b
      · linarith
    · intro h
      exact Or.inl ⟨by linarith, h⟩
  have hex : ∃ k : ℕ, ¬ inOrder (l.start - l.step / 10) (fw (k + 1)) (l.stop + l.step / 10) = true := by
    obtain ⟨k, hk⟩ := exists_nat_gt (span l + 1)
    refine ⟨k, ?_⟩
    rw [ok (k + 1) (by omega)]
    have hp := abs_le.mp (inv_pos hs (ifw (k + 1)))
    push_cast at hp
    linarith
  let N := Nat.find hex
  have hN : ¬ inOrder (l.start - l.step / 10) (fw (N + 1)) (l.stop + l.step / 10) = true := Nat.find_spec hex
  have hlt : ∀ i, i < N → inOrder (l.start - l.step / 10) (fw (i + 1)) (l.stop + l.step / 10) = true := by
    intro i hi
    exact not_not.mp (Nat.find_min hex hi)
  have hup : pos l (fw N) ≤ span l + 1 / 10 := by
    rcases Nat.eq_zero_or_pos N with h | h
    · rw [h]
      have : pos l (fw 0) = 0 := by show (l.start - l.start) / l.step = 0; simp
      linarith
    · rw [← ok N h]
      have := hlt (N - 1) (by omega)
      rwa [Nat.sub_add_cancel h] at this
  have hdn : span l + 1 / 10 < pos l (fw (N + 1)) := by
    rw [ok (N + 1) (by omega)] at hN
    exact not_le.mp hN
  have pN := abs_le.mp (inv_pos hs (ifw N))
  have pN1 := abs_le.mp (inv_pos hs (ifw (N + 1)))
  push_cast at pN pN1
  let bw := walk tol l (-1) (fw N)
  have ibw : ∀ i : ℕ, Inv tol l (N - i : ℤ) (bw i) := by
    intro i
    have := walk_inv h0 h1 hs (-1) (ifw N) i
    have e : (N : ℤ) - i = N + -1 * i := by ring
    rw [e]; exact this
  have bstep : ∀ i, i < N → inOrder (l.start - l.step / 10) (bw (i + 1)) (l.stop + l.step / 10) = true := by
    intro i hi
    rw [inOrder_pos hs]
    have hp := abs_le.mp (inv_pos hs (ibw (i + 1)))
    push_cast at hp
    have : (i : ℝ) + 1 ≤ N := by exact_mod_cast hi
    have hi0 : (0 : ℝ) ≤ i := by positivity
    left
    constructor <;> linarith
  have bbot : ¬ inOrder (l.start - l.step / 10) (bw (N + 1)) (l.stop + l.step / 10) = true := by
    rw [inOrder_pos hs]
    have hp := abs_le.mp (inv_pos hs (ibw (N + 1)))
    push_cast at hp
    rintro (⟨a, _⟩ | ⟨a, _⟩) <;> linarith
  have hbw : ∀ i, bw (i + 1) = fixzero tol (bw i - l.step) l.step := by
    intro i
    show fixzero tol (bw i + ((-1 : ℤ) : ℝ) * l.step) l.step = _
    congr 1; push_cast; ring
  have hfw : ∀ i, fw (i + 1) = fixzero tol (fw i + l.step) l.step := by
    intro i
    show fixzero tol (fw i + ((1 : ℤ) : ℝ) * l.step) l.step = _
    congr 1; push_cast; ring
  refine ⟨N, fw, bw, ⟨rfl, rfl, ?_, ?_, ?_, ?_, ?_⟩, ⟨by linarith, by linarith⟩, fun i _ => ifw i, ?_, ?_⟩
  · intro i hi
    have := hlt i hi
    rw [hfw] at this
    simp [next, hlin, hs, this, hfw]
  · intro hl
    rw [hfw] at hN
    simp [next, hlin, hs, hN, hl]
  · intro hl
    rw [hfw] at hN
    simp [next, hlin, hs, hN, hl]
  · intro i hi
    have := bstep i hi
    rw [hbw] at this
    simp [next, hlin, hs, this, hbw]
  · rw [hbw] at bbot
    simp [next, hlin, hs, bbot]
  · intro i hi
    have := ibw i
    rwa [← Nat.cast_sub hi] at this
  · intro hn
    have e1 : pos l (fw N) = N := by rw [inv_exact hn (ifw N)]; unfold pos; field_simp; ring
    have e2 : pos l (fw (N + 1)) = N + 1 := by rw [inv_exact hn (ifw (N + 1))]; unfold pos; push_cast; field_simp; ring
    rw [e1] at hup
    rw [e2] at hdn
    exact ((Nat.floor_eq_iff (by linarith)).mpr ⟨hup, hdn⟩).symm

section dc
variable (tol : ℝ) (l : Level) (h0 : 0 ≤ tol) (h1 : tol ≤ 1 / 20)
include h0 h1

/-- **C35, forward**: a linear sweep visits `start`, `start+step`, … in order, the last one being the last that is at most a
tenth of a step past `stop`, and ends.  (`tol` is `roundofftol`; a value that small compared to the step becomes 0, the next
ones are then counted from 0.) -/
theorem dc_linear (hlin : l.lin = true) (hs : l.step ≠ 0) (hL : 0 ≤ span l) (hl : l.loop = false) (hr : l.reverseIn = false) :
    ∃ (N : ℕ) (xs : List ℝ), LastIndex tol l N ∧ xs.length = N + 1 ∧ (∀ i (h : i < xs.length), Near tol l i xs[i]) ∧
      ∀ fuel, N < fuel → visits tol l fuel = some xs := by
  obtain ⟨N, fw, bw, t, hN, hf, -, -⟩ := lin_track tol l h0 h1 hlin hs hL
  refine ⟨N, ups N fw, hN, by simp [ups], ?_, t.plain hl hr⟩
  intro i h
  simp only [ups, List.length_map, List.length_range] at h
  simpa [ups] using inv_near (hf i (by omega))

/-- **C35, forward, exactly** when nothing is rounded to zero. -/
theorem dc_linear_exact (hlin : l.lin = true) (hs : l.step ≠ 0) (hL : 0 ≤ span l) (hl : l.loop = false) (hr : l.reverseIn = false)
    (hn : NoSnap tol l) (fuel : ℕ) (hf : ⌊span l + 1 / 10⌋₊ < fuel) :
    visits tol l fuel = some ((List.range (⌊span l + 1 / 10⌋₊ + 1)).map fun i : ℕ => l.start + i * l.step) := by
  obtain ⟨N, fw, bw, t, -, hfw, -, hN⟩ := lin_track tol l h0 h1 hlin hs hL
  have hN := hN hn
  rw [← hN] at hf ⊢
  rw [t.plain hl hr fuel hf]
  congr 1
  apply List.map_congr_left
  intro i hi
  exact inv_exact hn (hfw i (by have := List.mem_range.mp hi; omega))

/-- **C35, loop**: up as above and down again to `start`. -/
theorem dc_loop (hlin : l.lin = true) (hs : l.step ≠ 0) (hL : 0 ≤ span l) (hl : l.loop = true) (hr : l.reverseIn = false) :
    ∃ (N : ℕ) (xs ys : List ℝ), LastIndex tol l N ∧ xs.length = N + 1 ∧ (∀ i (h : i < xs.length), Near tol l i xs[i]) ∧
      ys.length = N ∧ (∀ i (h : i < ys.length), Near tol l (N - (i + 1)) ys[i]) ∧
      ∀ fuel, N + N < fuel → visits tol l fuel = some (xs ++ ys) := by
  obtain ⟨N, fw, bw, t, hN, hf, hb, -⟩ := lin_track tol l h0 h1 hlin hs hL
  refine ⟨N, ups N fw, downs N bw, hN, by simp [ups], ?_, by simp [downs], ?_, t.looped hl hr⟩
  · intro i h
    simp only [ups, List.length_map, List.length_range] at h
    simpa [ups] using inv_near (hf i (by omega))
  · intro i h
    simp only [downs, List.length_map, List.length_range] at h
    simpa [downs] using inv_near (hb (i + 1) (by omega))

/-- **C35, loop, exactly**. -/
theorem dc_loop_exact (hlin : l.lin = true) (hs : l.step ≠ 0) (hL : 0 ≤ span l) (hl : l.loop = true) (hr : l.reverseIn = false)
    (hn : NoSnap tol l) (fuel : ℕ) (hf : 2 * ⌊span l + 1 / 10⌋₊ < fuel) :
    visits tol l fuel = some ((List.range (⌊span l + 1 / 10⌋₊ + 1)).map (fun i : ℕ => l.start + i * l.step) ++
      ((List.range ⌊span l + 1 / 10⌋₊).map fun i : ℕ => l.start + i * l.step).reverse) := by
  obtain ⟨N, fw, bw, t, -, hfw, hbw, hN⟩ := lin_track tol l h0 h1 hlin hs hL
  have hN := hN hn
  rw [← hN] at hf ⊢
  rw [t.looped hl hr fuel (by omega)]
  congr 2
  · apply List.map_congr_left
    intro i hi
    exact inv_exact hn (hfw i (by have := List.mem_range.mp hi; omega))
  · apply List.ext_getElem (by simp [downs])
    intro i h2 h3
    simp only [downs, List.length_map, List.length_range] at h2
    simp only [downs, List.getElem_map, List.getElem_range, List.getElem_reverse, List.length_map, List.length_range]
    rw [inv_exact hn (hbw (i + 1) (by omega)), show N - 1 - i = N - (i + 1) by omega]

/-- **C35, reverse, partial**: the points come in the opposite order, but the first of them, the one at `stop`, is missing
(unless the sweep has only one point). -/
theorem dc_reverse_partial (hlin : l.lin = true) (hs : l.step ≠ 0) (hL : 0 ≤ span l) (hl : l.loop = false) (hr : l.reverseIn = true)
    (hn : NoSnap tol l) (fuel : ℕ) (hf : ⌊span l + 1 / 10⌋₊ < fuel) :
    visits tol l fuel = some (if ⌊span l + 1 / 10⌋₊ = 0 then [l.start]
      else ((List.range ⌊span l + 1 / 10⌋₊).map fun i : ℕ => l.start + i * l.step).reverse) := by
  obtain ⟨N, fw, bw, t, -, hfw, hbw, hN⟩ := lin_track tol l h0 h1 hlin hs hL
  have hN := hN hn
  rw [← hN] at hf ⊢
  rw [t.reversed hl hr fuel hf]
  congr 2
  apply List.ext_getElem (by simp [downs])
  intro i h2 h3
  simp only [downs, List.length_map, List.length_range] at h2
  simp only [downs, List.getElem_map, List.getElem_range, List.getElem_reverse, List.length_map, List.length_range]
  rw [inv_exact hn (hbw (i + 1) (by omega)), show N - 1 - i = N - (i + 1) by omega]

/-- **C35, reverse with loop is wrong**: only the start point is visited. -/
theorem dc_reverse_loop_one_point (hlin : l.lin = true) (hs : l.step ≠ 0) (hL : 0 ≤ span l) (hl : l.loop = true)
    (hr : l.reverseIn = true) (hn : NoSnap tol l) (fuel : ℕ) (hf : 2 * ⌊span l + 1 / 10⌋₊ < fuel) :
    visits tol l fuel = some [l.start] := by
  obtain ⟨N, fw, bw, t, -, hfw, hbw, hN⟩ := lin_track tol l h0 h1 hlin hs hL
  have hN := hN hn
  rw [← hN] at hf
  rw [t.reversed_loop hl hr fuel (by omega)]
  have := inv_exact hn (hbw N le_rfl)
  simp at this
  rw [this]

/-- **C35, nothing to step over**: with a step away from `stop` only the start point is visited. -/
theorem dc_wrong_direction (hlin : l.lin = true) (hs : l.step ≠ 0) (hL : span l < 0) (hl : l.loop = false) (hr : l.reverseIn = false)
    (fuel : ℕ) (hf : 0 < fuel) : visits tol l fuel = some [l.start] := by
  have i0 : Inv tol l 0 l.start := ⟨0, by simp; positivity, by simp, Or.inl rfl, fun _ => rfl⟩
  have i1 := inv_move h0 h1 hs i0 1
  have hp := abs_le.mp (inv_pos hs i1)
  push_cast at hp
  rw [one_mul] at hp
  have hb : ¬ inOrder (l.start - l.step / 10) (fixzero tol (l.start + l.step) l.step) (l.stop + l.step / 10) = true := by
    rw [inOrder_pos hs]
    rintro (⟨_, b⟩ | ⟨_, b⟩) <;> linarith
  have hx : next tol l ⟨l.start, false⟩ = (false, ⟨l.start, false⟩) := by
    simp [next, hlin, hs, hb, hl]
  have := doWhile_path (fun s : St => s.val) (next tol l) 0 (fun _ => ⟨l.start, false⟩) (by omega) (by rw [hx]) fuel hf
  simp [visits, first, hr, this]

omit h0 h1 in
/-- **C35, no step**: with step 0 only the start point is visited, whatever the direction. -/
theorem dc_no_step (hlin : l.lin = true) (hs : l.step = 0) (fuel : ℕ) (hf : 0 < fuel) : visits tol l fuel = some [l.start] := by
  have hx : ∀ s, next tol l s = (false, s) := by intro s; simp [next, hlin, hs]
  obtain ⟨f, rfl⟩ : ∃ f, fuel = f + 1 := ⟨fuel - 1, by omega⟩
  cases hr : l.reverseIn <;> simp [visits, first, hr, whileNext, doWhile, hx]

end dc

/-- the hypotheses of `dc_linear_exact` and the others hold for 0 to 2 by 1 -/
def demo (loop rev : Bool) : Level := ⟨0, 2, 1, true, loop, rev⟩

theorem demo_noSnap (a b : Bool) : NoSnap (1 / 20) (demo a b) := by
  intro k hk
  simp only [demo, zero_add, mul_one, one_mul] at hk ⊢
  have : |(k : ℝ)| < 1 := lt_trans hk (by rw [abs_of_pos] <;> norm_num)
  have : |k| < 1 := by exact_mod_cast this
  rw [Int.abs_lt_one_iff.mp this]; simp

theorem demo_floor (a b : Bool) : ⌊span (demo a b) + 1 / 10⌋₊ = 2 := by
  rw [Nat.floor_eq_iff] <;> norm_num [span, demo]

example : visits (1 / 20) (demo false false) 10 = some [0, 1, 2] := by
  have := dc_linear_exact (1 / 20) (demo false false) (by norm_num) le_rfl rfl (by norm_num [demo]) (by norm_num [demo, span])
    rfl rfl (demo_noSnap _ _) 10 (by rw [demo_floor]; norm_num)
  rw [demo_floor] at this
  rw [this]
  simp [List.range_succ, demo]

example : visits (1 / 20) (demo true false) 10 = some [0, 1, 2, 1, 0] := by
  have := dc_loop_exact (1 / 20) (demo true false) (by norm_num) le_rfl rfl (by norm_num [demo]) (by norm_num [demo, span])
    rfl rfl (demo_noSnap _ _) 10 (by rw [demo_floor]; norm_num)
  rw [demo_floor] at this
  rw [this]
  simp [List.range_succ, demo]

/-- **C35 is false for reverse**: 0 to 2 by 1 backward visits 1 and 0, not 2. -/
theorem dc_reverse_misses_stop : visits (1 / 20) (demo false true) 10 = some [1, 0] := by
  have := dc_reverse_partial (1 / 20) (demo false true) (by norm_num) le_rfl rfl (by norm_num [demo]) (by norm_num [demo, span])
    rfl rfl (demo_noSnap _ _) 10 (by rw [demo_floor]; norm_num)
  rw [demo_floor] at this
  rw [this]
  simp [List.range_succ, demo]

example : visits (1 / 20) (demo true true) 10 = some [0] :=
  dc_reverse_loop_one_point (1 / 20) (demo true true) (by norm_num) le_rfl rfl (by norm_num [demo]) (by norm_num [demo, span])
    rfl rfl (demo_noSnap _ _) 10 (by rw [demo_floor]; norm_num)

/-- downward steps -/
example : ∃ N xs, LastIndex 0 ⟨5, 0, -2, true, false, false⟩ N ∧ xs.length = N + 1 ∧
    (∀ i (h : i < xs.length), Near 0 ⟨5, 0, -2, true, false, false⟩ i xs[i]) ∧
    ∀ fuel, N < fuel → visits 0 ⟨5, 0, -2, true, false, false⟩ fuel = some xs :=
  dc_linear 0 _ le_rfl (by norm_num) rfl (by norm_num) (by norm_num [span]) rfl rfl

example : visits 0 ⟨0, -5, 1, true, false, false⟩ 3 = some [0] :=
  dc_wrong_direction 0 _ le_rfl (by norm_num) rfl (by norm_num) (by norm_num [span]) rfl rfl 3 (by norm_num)

example : ∃ (N : ℕ) (xs ys : List ℝ), LastIndex 0 ⟨5, 0, -2, true, true, false⟩ N ∧ xs.length = N + 1 ∧ (∀ i (h : i < xs.length), Near 0 ⟨5, 0, -2, true, true, false⟩ i xs[i]) ∧
      ys.length = N ∧ (∀ i (h : i < ys.length), Near 0 ⟨5, 0, -2, true, true, false⟩ (N - (i + 1)) ys[i]) ∧
      ∀ fuel, N + N < fuel → visits 0 ⟨5, 0, -2, true, true, false⟩ fuel = some (xs ++ ys) :=
  dc_loop 0 _ le_rfl (by norm_num) rfl (by norm_num) (by norm_num [span]) rfl rfl

example : visits 0 ⟨3, 7, 0, true, true, true⟩ 1 = some [3] := dc_no_step 0 _ rfl rfl 1 (by norm_num)

/-- **the `lin` option takes the number of points for the step**: 5 points from 0 to 10 gives step 5 (3 points). -/
theorem dc_lin_points_wrong : fixArgs .linPts 0 10 5 = (5, true) := by norm_num [fixArgs]

/-! ### logarithmic sweeps -/

/-- (specification) the number of steps from `start` to `stop` when each multiplies by `step` -/
noncomputable def ratioSpan (start stop step : ℝ) : ℝ := Real.log (stop / start) / Real.log step

theorem log_le {start step : ℝ} (h0 : start ≠ 0) (hs : 0 < step) (hs1 : step ≠ 1) :
    (∀ a b : ℝ, start * step ^ a ≤ start * step ^ b ↔ a ≤ b) ∨ (∀ a b : ℝ, start * step ^ a ≤ start * step ^ b ↔ b ≤ a) := by
  rcases lt_or_gt_of_ne hs1 with h | h <;> rcases lt_or_gt_of_ne h0 with g | g
  · left; intro a b
    rw [mul_le_mul_left_of_neg g, Real.rpow_le_rpow_left_iff_of_base_lt_one hs h]
  · right; intro a b
    rw [mul_le_mul_iff_right₀ g, Real.rpow_le_rpow_left_iff_of_base_lt_one hs h]
  · right; intro a b
    rw [mul_le_mul_left_of_neg g, Real.rpow_le_rpow_left_iff h]
  · left; intro a b
    rw [mul_le_mul_iff_right₀ g, Real.rpow_le_rpow_left_iff h]

theorem inOrder_log {start step : ℝ} (h0 : start ≠ 0) (hs : 0 < step) (hs1 : step ≠ 1) (a b c : ℝ) :
    inOrder (start * step ^ a) (start * step ^ b) (start * step ^ c) = true ↔ (a ≤ b ∧ b ≤ c) ∨ (c ≤ b ∧ b ≤ a) := by
  unfold inOrder
  rw [decide_eq_true_iff]
  rcases log_le h0 hs hs1 with h | h
  · simp only [h]
  · simp only [h]; tauto

theorem stop_eq {start stop step : ℝ} (h0 : start ≠ 0) (hs : 0 < step) (hs1 : step ≠ 1) (hr : 0 < stop / start) :
    stop = start * step ^ ratioSpan start stop step := by
  have hl : Real.log step ≠ 0 := by
    intro h
    rcases Real.log_eq_zero.mp h with h | h | h <;> first | linarith | exact hs1 h
  rw [Real.rpow_def_of_pos hs, ratioSpan, mul_div_cancel₀ _ hl, Real.exp_log hr]
  field_simp

theorem log_track (tol : ℝ) (l : Level) (hlin : l.lin = false) (h0 : l.start ≠ 0) (hs : 0 < l.step) (hs1 : l.step ≠ 1)
    (hr : 0 < l.stop / l.start) (hL : 0 ≤ ratioSpan l.start l.stop l.step) :
    Track tol l ⌊ratioSpan l.start l.stop l.step + 1 / 10⌋₊ (fun i => l.start * l.step ^ i)
      (fun i => l.start * l.step ^ ((⌊ratioSpan l.start l.stop l.step + 1 / 10⌋₊ : ℤ) - i)) := by
  have e := stop_eq h0 hs hs1 hr
  generalize hLL : ratioSpan l.start l.stop l.step = L at *
  have eg1 : l.start / l.step ^ (0.1 : ℝ) = l.start * l.step ^ (-(1 / 10) : ℝ) := by
    rw [Real.rpow_neg hs.le, div_eq_mul_inv]; norm_num
  have eg2 : l.stop * l.step ^ (0.1 : ℝ) = l.start * l.step ^ (L + 1 / 10) := by
    rw [e, Real.rpow_add hs]; norm_num [mul_assoc]
  have hin : ∀ k : ℤ, inOrder (l.start / l.step ^ (0.1 : ℝ)) (l.start * l.step ^ k) (l.stop * l.step ^ (0.1 : ℝ)) = true ↔
      (-(1 / 10 : ℝ) ≤ k ∧ (k : ℝ) ≤ L + 1 / 10) ∨ (L + 1 / 10 ≤ k ∧ (k : ℝ) ≤ -(1 / 10)) := by
    intro k
    rw [eg1, eg2, ← Real.rpow_intCast, inOrder_log h0 hs hs1]
  have hL' : 0 ≤ L + 1 / 10 := by linarith
  have hfl := Nat.floor_le hL'
  have hlt := Nat.lt_floor_add_one (L + 1 / 10)
  generalize hN : ⌊L + 1 / 10⌋₊ = N at *
  have fwd : ∀ i : ℕ, l.start * l.step ^ i * l.step = l.start * l.step ^ ((i + 1 : ℕ) : ℤ) := by
    intro i; rw [zpow_natCast, pow_succ]; ring
  have bwd : ∀ k : ℤ, l.start * l.step ^ k / l.step = l.start * l.step ^ (k - 1) := by
    intro k; rw [zpow_sub_one₀ hs.ne']; ring
  have htop : inOrder (l.start / l.step ^ (0.1 : ℝ)) (l.start * l.step ^ ((N + 1 : ℕ) : ℤ)) (l.stop * l.step ^ (0.1 : ℝ)) = false := by
    rw [Bool.eq_false_iff, ne_eq, hin]
    have : (0 : ℝ) ≤ N := by positivity
    push_cast
    rintro (⟨_, b⟩ | ⟨_, b⟩) <;> linarith
  refine ⟨by simp, by simp, ?_, ?_, ?_, ?_, ?_⟩
  · intro i hi
    have h2 := (hin ((i + 1 : ℕ) : ℤ)).mpr (by
      left
      have : (i : ℝ) + 1 ≤ N := by exact_mod_cast hi
      have : (0 : ℝ) ≤ i := by positivity
      push_cast
      constructor <;> linarith)
    simp only [next, hlin, hs1, fwd, h2, Bool.false_eq_true, if_false, Bool.not_false, Bool.true_and, Bool.not_true, Bool.false_and,
      Bool.or_false, if_true]
    rw [zpow_natCast]
  · intro hl
    simp only [next, hlin, hs1, fwd, htop, hl, Bool.false_eq_true, if_false, Bool.not_false, Bool.and_false, Bool.or_false, Bool.and_self]
  · intro hl
    simp only [next, hlin, hs1, fwd, htop, hl, Bool.false_eq_true, if_false, Bool.not_false, Bool.and_false, Bool.or_true, Bool.true_or,
      Bool.and_self, if_true]
  · intro i hi
    have h2 := (hin ((N : ℤ) - (i + 1 : ℕ))).mpr (by
      left
      have : (i : ℝ) + 1 ≤ N := by exact_mod_cast hi
      have : (0 : ℝ) ≤ i := by positivity
      push_cast
      constructor <;> linarith)
    have e3 : (N : ℤ) - i - 1 = N - (i + 1 : ℕ) := by push_cast; ring
    simp only [next, hlin, hs1, bwd, e3, h2, Bool.false_eq_true, if_false, Bool.not_false, Bool.true_and, Bool.not_true, Bool.false_and,
      Bool.or_false, if_true, Bool.true_or]
  · have h2 : ¬ inOrder (l.start / l.step ^ (0.1 : ℝ)) (l.start * l.step ^ (-1 : ℤ)) (l.stop * l.step ^ (0.1 : ℝ)) = true := by
      rw [hin]
      push_cast
      rintro (⟨a, _⟩ | ⟨a, _⟩) <;> linarith
    have e3 : (N : ℤ) - N - 1 = -1 := by ring
    simp only [next, hlin, hs1, bwd, e3, h2, Bool.false_eq_true, if_false, Bool.not_false, Bool.true_and, Bool.not_true, Bool.false_and,
      Bool.or_false, if_true, Bool.true_or]

/-- **C35, multiplying sweeps**: `start`, `start*step`, `start*step²`, … up to a tenth of a step past `stop`, up or down. -/
theorem dc_log (tol : ℝ) (l : Level) (hlin : l.lin = false) (h0 : l.start ≠ 0) (hs : 0 < l.step) (hs1 : l.step ≠ 1)
    (hr : 0 < l.stop / l.start) (hL : 0 ≤ ratioSpan l.start l.stop l.step) (hl : l.loop = false) (hv : l.reverseIn = false)
    (fuel : ℕ) (hf : ⌊ratioSpan l.start l.stop l.step + 1 / 10⌋₊ < fuel) :
    visits tol l fuel = some ((List.range (⌊ratioSpan l.start l.stop l.step + 1 / 10⌋₊ + 1)).map fun i => l.start * l.step ^ i) :=
  (log_track tol l hlin h0 hs hs1 hr hL).plain hl hv fuel hf

/-- 1 to 8 by factors of 2 -/
example : visits 0 ⟨1, 8, 2, false, false, false⟩ 10 = some [1, 2, 4, 8] := by
  have hl : ratioSpan 1 8 2 = 3 := by
    unfold ratioSpan
    rw [show (8 : ℝ) / 1 = 2 ^ (3 : ℕ) by norm_num, Real.log_pow]
    have : Real.log 2 ≠ 0 := (Real.log_pos (by norm_num)).ne'
    field_simp; norm_num
  have hf : ⌊ratioSpan 1 8 2 + 1 / 10⌋₊ = 3 := by rw [hl, Nat.floor_eq_iff] <;> norm_num
  have := dc_log 0 ⟨1, 8, 2, false, false, false⟩ rfl (by norm_num) (by norm_num) (by norm_num) (by norm_num)
    (by show 0 ≤ ratioSpan 1 8 2; rw [hl]; norm_num) rfl rfl 10 (by show ⌊ratioSpan 1 8 2 + 1 / 10⌋₊ < 10; rw [hf]; norm_num)
  rw [this]
  show some ((List.range (⌊ratioSpan 1 8 2 + 1 / 10⌋₊ + 1)).map _) = _
  rw [hf]
  simp [List.range_succ]; norm_num

theorem visits_none {tol : ℝ} {l : Level} (P : St → Prop) (hinit : P ⟨l.start, false⟩)
    (h : ∀ s, P s → (next tol l s).1 = true ∧ P (next tol l s).2) (fuel : ℕ) : visits tol l fuel = none := by
  have h1 : ∀ fuel s, P s → whileNext (next tol l) fuel s = none := by
    intro fuel
    induction fuel with
    | zero => intro s _; rfl
    | succ f ih => intro s hs; simp [whileNext, (h s hs).1, ih _ (h s hs).2]
  have h2 : ∀ fuel s, P s → doWhile (fun s : St => some (s, [s.val])) (next tol l) fuel s = none := by
    intro fuel
    induction fuel with
    | zero => intro s _; rfl
    | succ f ih => intro s hs; simp [doWhile, (h s hs).1, ih _ (h s hs).2]
  cases hr : l.reverseIn <;> simp [visits, first, hr, h1 _ _ hinit, h2 _ _ hinit]

/-- **a multiplying sweep from 0 never ends** (`fix_args` "prohibits" it only when the step is 0) -/
theorem dc_log_from_zero_endless (tol : ℝ) (l : Level) (hlin : l.lin = false) (h0 : l.start = 0) (hs1 : l.step ≠ 1) (fuel : ℕ) :
    visits tol l fuel = none := by
  apply visits_none (fun s => s.val = 0 ∧ s.rev = false) ⟨h0, rfl⟩
  rintro ⟨v, r⟩ ⟨hv, hr⟩
  simp only at hv hr
  subst hv hr
  have : inOrder 0 0 (l.stop * l.step ^ (0.1 : ℝ)) = true := by
    unfold inOrder
    rw [decide_eq_true_iff]
    simp only [le_refl, true_and, and_true]
    exact le_total _ _
  simp [next, hlin, hs1, h0, this]

/-- **a shrinking sweep to 0 (or past it) never ends** -/
theorem dc_log_to_zero_endless (tol : ℝ) (l : Level) (hlin : l.lin = false) (h0 : 0 < l.start) (hs : 0 < l.step) (hs1 : l.step < 1)
    (hr : l.stop ≤ 0) (fuel : ℕ) : visits tol l fuel = none := by
  have hp : 0 < l.step ^ (0.1 : ℝ) := Real.rpow_pos_of_pos hs _
  have hp1 : l.step ^ (0.1 : ℝ) ≤ 1 := Real.rpow_le_one hs.le hs1.le (by norm_num)
  apply visits_none (fun s => 0 < s.val ∧ s.val ≤ l.start ∧ s.rev = false) ⟨h0, le_rfl, rfl⟩
  rintro ⟨v, r⟩ ⟨hv, hv1, hr'⟩
  simp only at hv hv1 hr'
  subst hr'
  have hm : 0 < v * l.step := mul_pos hv hs
  have hm1 : v * l.step ≤ l.start := le_trans (by nlinarith) hv1
  have : inOrder (l.start / l.step ^ (0.1 : ℝ)) (v * l.step) (l.stop * l.step ^ (0.1 : ℝ)) = true := by
    unfold inOrder
    rw [decide_eq_true_iff]
    right
    refine ⟨le_trans (mul_nonpos_of_nonpos_of_nonneg hr hp.le) hm.le, ?_⟩
    rw [le_div_iff₀ hp]
    nlinarith
  simp [next, hlin, hs1.ne, this, hm, hm1]

example (fuel : ℕ) : visits 0 ⟨0, 10, 10, false, false, false⟩ fuel = none :=
  dc_log_from_zero_endless 0 _ rfl rfl (by norm_num) fuel
example (fuel : ℕ) : visits 0 ⟨10, 0, 1 / 2, false, false, false⟩ fuel = none :=
  dc_log_to_zero_endless 0 _ rfl (by norm_num) (by norm_num) (by norm_num) (by norm_num) fuel

/-! ### nested sweeps -/

/-- (specification) all combinations, the first list varying fastest -/
def cross : List (List ℝ) → List (List ℝ)
  | [] => [[]]
  | xs :: rest => (cross rest).flatMap fun r => xs.map (· :: r)

theorem cross_append (l : List (List ℝ)) (xs : List ℝ) : cross (l ++ [xs]) = xs.flatMap fun x => (cross l).map (· ++ [x]) := by
  induction l with
  | nil => simp [cross, List.flatMap_singleton', List.map_eq_flatMap]
  | cons ys l ih =>
    simp only [List.cons_append, cross, ih]
    rw [List.flatMap_assoc]
    congr 1
    funext x
    rw [List.map_flatMap, List.flatMap_map]
    simp [List.map_map, Function.comp_def]

theorem doWhile_level (tol : ℝ) (l : Level) (n : ℕ) (body : Sts → Option (Sts × List (List ℝ))) (F : ℝ → List (List ℝ)) (base : Sts)
    (hb : ∀ s : Sts, (∀ k, n < k → s k = base k) → ∃ s', body s = some (s', F (s n).val) ∧ ∀ k, n ≤ k → s' k = s k) :
    ∀ (fuel : ℕ) (s : Sts) (x' : St) (vals : List ℝ), (∀ k, n < k → s k = base k) →
      doWhile (fun s : St => some (s, [s.val])) (next tol l) fuel (s n) = some (x', vals) →
      ∃ s', doWhile body (fun s => let r := next tol l (s n); (r.1, upd s n r.2)) fuel s = some (s', vals.flatMap F) ∧
        ∀ k, n < k → s' k = base k := by
  intro fuel
  induction fuel with
  | zero => intro s x' vals _ h; simp [doWhile] at h
  | succ f ih =>
    intro s x' vals hs h
    obtain ⟨s1, e1, h1⟩ := hb s hs
    simp only [doWhile] at h ⊢
    rw [e1]
    simp only
    have en : s1 n = s n := h1 n le_rfl
    rw [en]
    split at h
    · rename_i hc
      rw [if_pos hc]
      obtain ⟨q, hq, e⟩ := Option.map_eq_some_iff.mp h
      obtain ⟨rfl, rfl⟩ := Prod.mk.inj e
      have hk : ∀ k, n < k → upd s1 n (next tol l (s n)).2 k = base k := by
        intro k hk
        have : k ≠ n := by omega
        simp [upd, this, h1 k hk.le, hs k hk]
      obtain ⟨s2, e2, h2⟩ := ih (upd s1 n (next tol l (s n)).2) q.1 q.2 hk (by simpa [upd] using hq)
      refine ⟨s2, ?_, h2⟩
      rw [e2]
      simp
    · rename_i hc
      rw [if_neg hc]
      obtain ⟨rfl, rfl⟩ := Prod.mk.inj (Option.some.inj h)
      refine ⟨_, by simp; rfl, ?_⟩
      intro k hk
      have : k ≠ n := by omega
      simp [upd, this, h1 k hk.le, hs k hk]

theorem dc_nested_aux (tol : ℝ) (ls : ℕ → Level) (total fuel : ℕ) (xs : ℕ → List ℝ) :
    ∀ n, n ≤ total → (∀ k, k < n → visits tol (ls k) fuel = some (xs k)) → ∀ s : Sts,
      ∃ s', sweepRec tol ls total fuel n s = some (s', (cross ((List.range n).map xs)).map
        (· ++ (List.range' n (total - n)).map fun k => (s k).val)) ∧ ∀ k, n ≤ k → s' k = s k := by
  intro n
  induction n with
  | zero =>
    intro _ _ s
    exact ⟨s, by simp [sweepRec, cross, List.range_eq_range'], fun _ _ => rfl⟩
  | succ n ih =>
    intro hn hv s
    have hvn := hv n (by omega)
    unfold visits at hvn
    cases hf : first tol (ls n) fuel with
    | none => rw [hf] at hvn; simp at hvn
    | some x =>
      rw [hf] at hvn
      simp only at hvn
      obtain ⟨q, hq, e⟩ := Option.map_eq_some_iff.mp hvn
      let F : ℝ → List (List ℝ) := fun v => (cross ((List.range n).map xs)).map
        (· ++ (v :: (List.range' (n + 1) (total - (n + 1))).map fun k => (s k).val))
      have hb : ∀ t : Sts, (∀ k, n < k → t k = s k) → ∃ t', sweepRec tol ls total fuel n t = some (t', F (t n).val) ∧ ∀ k, n ≤ k → t' k = t k := by
        intro t ht
        obtain ⟨t', e1, h1⟩ := ih (by omega) (fun k hk => hv k (by omega)) t
        refine ⟨t', ?_, h1⟩
        rw [e1]
        have e2 : total - n = (total - (n + 1)) + 1 := by omega
        simp only [F, e2, List.range'_succ, List.map_cons]
        congr 3
        funext r
        congr 2
        apply List.map_congr_left
        intro k hk
        rw [ht k (by have := List.mem_range'_1.mp hk; omega)]
      have hu : ∀ k, n < k → upd s n x k = s k := by
        intro k hk
        have : k ≠ n := by omega
        simp [upd, this]
      obtain ⟨s', e', h'⟩ := doWhile_level tol (ls n) n (sweepRec tol ls total fuel n) F s hb fuel (upd s n x) q.1 q.2 hu
        (by simpa [upd] using hq)
      refine ⟨s', ?_, fun k hk => h' k (by omega)⟩
      simp only [sweepRec, hf]
      rw [e', e, List.range_succ, List.map_append]
      simp only [List.map_cons, List.map_nil, cross_append, List.map_flatMap, List.map_map, Function.comp_def, List.append_assoc,
        List.cons_append, List.nil_append, F]

/-- **C35, nesting**: when each level on its own visits `xs k`, the nested sweep visits all combinations, each once, with level 0
varying fastest. -/
theorem dc_nested (tol : ℝ) (ls : ℕ → Level) (n fuel : ℕ) (xs : ℕ → List ℝ)
    (hv : ∀ k, k < n → visits tol (ls k) fuel = some (xs k)) (s : Sts) :
    (sweepRec tol ls n fuel n s).map Prod.snd = some (cross ((List.range n).map xs)) := by
  obtain ⟨s', e, -⟩ := dc_nested_aux tol ls n fuel xs n le_rfl hv s
  rw [e]
  simp

/-- **every combination is visited, and only those** -/
theorem mem_cross (ls : List (List ℝ)) (v : List ℝ) : v ∈ cross ls ↔ List.Forall₂ (fun x xs => x ∈ xs) v ls := by
  induction ls generalizing v with
  | nil => simp [cross]
  | cons xs ls ih =>
    simp only [cross, List.mem_flatMap, List.mem_map]
    constructor
    · rintro ⟨r, hr, x, hx, rfl⟩
      exact List.Forall₂.cons hx ((ih r).mp hr)
    · intro h
      cases h with
      | cons hx hr => exact ⟨_, (ih _).mpr hr, _, hx, rfl⟩

theorem length_cross (ls : List (List ℝ)) : (cross ls).length = (ls.map List.length).prod := by
  induction ls with
  | nil => simp [cross]
  | cons xs ls ih => simp [cross, List.length_flatMap, ih, Nat.mul_comm]

example (s : Sts) : (sweepRec (1 / 20) (fun _ => demo false false) 2 10 2 s).map Prod.snd =
    some [[0, 0], [1, 0], [2, 0], [0, 1], [1, 1], [2, 1], [0, 2], [1, 2], [2, 2]] := by
  rw [dc_nested (1 / 20) _ 2 10 (fun _ => [0, 1, 2])]
  · simp [List.range_succ, cross, List.flatMap]
  · intro k _
    have := dc_linear_exact (1 / 20) (demo false false) (by norm_num) le_rfl rfl (by norm_num [demo]) (by norm_num [demo, span])
      rfl rfl (demo_noSnap _ _) 10 (by rw [demo_floor]; norm_num)
    rw [demo_floor] at this
    rw [this]
    simp [List.range_succ, demo]

/-! ### putting things back -/

section restore
variable {C V : Type _}

theorem putBack_par (t : Target V) (st : Option (ℕ × C)) (w : World C V) (hz : t.zap ≠ none) : (putBack t st w).par = w.par := by
  unfold putBack
  cases h : t.zap with
  | none => exact absurd h hz
  | some e => cases st <;> rfl

theorem finish_elt (ctrl : ℕ → C) (ts : List (Target V)) (hd : (ts.filterMap Target.zap).Nodup) (i : ℕ) (w : World C V) (w2 : World C V)
    (he : w2.elt = (takeAll ctrl i ts w).2.elt) : (finish ts (takeAll ctrl i ts w).1 w2).elt = w.elt := by
  induction ts generalizing i w w2 with
  | nil => simpa [takeAll, finish] using he
  | cons t ts ih =>
    cases hz : t.zap with
    | none =>
      simp only [takeAll, take, hz, finish] at he ⊢
      apply ih (by simpa [List.filterMap_cons, hz] using hd)
      rw [← he]
      unfold putBack
      rw [hz]
      cases t.param <;> rfl
    | some e =>
      have hd' : e ∉ ts.filterMap Target.zap ∧ (ts.filterMap Target.zap).Nodup := by
        simpa [List.filterMap_cons, hz] using hd
      -- the stash of the others does not change when element `e` does
      have key : ∀ (ts : List (Target V)) (i : ℕ) (a b : World C V) , e ∉ ts.filterMap Target.zap → (∀ k, k ≠ e → a.elt k = b.elt k) →
          (takeAll ctrl i ts a).1 = (takeAll ctrl i ts b).1 ∧ (∀ k, k ≠ e → (takeAll ctrl i ts a).2.elt k = (takeAll ctrl i ts b).2.elt k) ∧
          (takeAll ctrl i ts a).2.elt e = a.elt e := by
        intro ts
        induction ts with
        | nil => intro i a b _ h; exact ⟨rfl, h, rfl⟩
        | cons u us ihu =>
          intro i a b hn h
          cases hu : u.zap with
          | none =>
            have := ihu (i + 1) a b (by simpa [List.filterMap_cons, hu] using hn) h
            simpa [takeAll, take, hu] using this
          | some g =>
            have hn' : e ≠ g ∧ e ∉ us.filterMap Target.zap := by
              simpa [List.filterMap_cons, hu] using hn
            have := ihu (i + 1) { a with elt := fun k => if k = g then ctrl i else a.elt k }
              { b with elt := fun k => if k = g then ctrl i else b.elt k } hn'.2 (by
                intro k hk
                by_cases hg : k = g
                · simp [hg]
                · simp [hg, h k hk])
            simp only [takeAll, take, hu]
            refine ⟨?_, this.2.1, ?_⟩
            · rw [this.1, h g (Ne.symm hn'.1)]
            · rw [this.2.2]; simp [hn'.1]
      simp only [takeAll, take, hz, finish] at he ⊢
      have k := key ts (i + 1) { w with elt := fun k => if k = e then ctrl i else w.elt k } w hd'.1 (by
        intro k hk; simp [hk])
      rw [k.1]
      apply ih hd'.2
      funext x
      unfold putBack
      rw [hz]
      simp only
      by_cases hx : x = e
      · have k2 := key ts (i + 1) w w hd'.1 (by simp)
        subst hx
        rw [k2.2.2]; simp
      · simp only [hx, if_false]
        rw [he, k.2.1 x hx]

theorem takeAll_par (ctrl : ℕ → C) (ts : List (Target V)) (i : ℕ) (w : World C V) : (takeAll ctrl i ts w).2.par = w.par := by
  induction ts generalizing i w with
  | nil => rfl
  | cons t ts ih =>
    simp only [takeAll]
    rw [ih]
    unfold take
    cases t.zap <;> rfl

theorem takeAll_length (ctrl : ℕ → C) (ts : List (Target V)) (i : ℕ) (w : World C V) : (takeAll ctrl i ts w).1.length = ts.length := by
  induction ts generalizing i w with
  | nil => rfl
  | cons t ts ih => simp [takeAll, ih]

theorem finish_par (val : ℕ → V) (ts : List (Target V)) (ss : List (Option (ℕ × C))) (hl : ss.length = ts.length)
    (hp : ∀ t ∈ ts, ∀ p v, t.param = some (p, v) → t.zap = none ∧ v = val p) (w : World C V) (done : ℕ → Prop)
    (hw : ∀ p, done p → w.par p = val p) (hall : ∀ p, done p ∨ (∃ t ∈ ts, ∃ v, t.param = some (p, v))) :
    (finish ts ss w).par = val := by
  induction ts generalizing ss w done with
  | nil =>
    simp only [finish]
    funext p
    rcases hall p with h | ⟨t, ht, _⟩
    · exact hw p h
    · simp at ht
  | cons t ts ih =>
    cases ss with
    | nil => simp at hl
    | cons st ss =>
      simp only [finish]
      have hp' : ∀ t ∈ ts, ∀ p v, t.param = some (p, v) → t.zap = none ∧ v = val p := fun u hu => hp u (List.mem_cons_of_mem _ hu)
      cases hq : t.param with
      | none =>
        apply ih ss (by simpa using hl) hp' _ done
        · intro p hd
          have : (putBack t st w).par = w.par := by
            unfold putBack
            rw [hq]
            cases t.zap <;> cases st <;> rfl
          rw [this]; exact hw p hd
        · intro p
          rcases hall p with h | ⟨u, hu, v, hv⟩
          · exact Or.inl h
          · rcases List.mem_cons.mp hu with rfl | hu
            · rw [hq] at hv; simp at hv
            · exact Or.inr ⟨u, hu, v, hv⟩
      | some pv =>
        obtain ⟨q, v⟩ := pv
        obtain ⟨hz, hv⟩ := hp t List.mem_cons_self q v hq
        apply ih ss (by simpa using hl) hp' _ (fun p => done p ∨ p = q)
        · intro p hd
          unfold putBack
          rw [hz, hq]
          simp only
          by_cases h : p = q
          · simp [h, hv]
          · simp only [h, if_false]
            exact hw p (hd.resolve_right h)
        · intro p
          by_cases h : p = q
          · exact Or.inl (Or.inr h)
          · rcases hall p with h' | ⟨u, hu, v', hv'⟩
            · exact Or.inl (Or.inl h')
            · rcases List.mem_cons.mp hu with rfl | hu
              · rw [hq] at hv'
                exact absurd (Prod.mk.inj (Option.some.inj hv')).1.symm h
              · exact Or.inr ⟨u, hu, v', hv'⟩

/-- **C35, afterwards everything has its old value, partial**: elements and parameters, any number of levels, any values in
between — provided no element is swept on two levels, and every parameter entry was made by this command (see
`dc_same_element_twice_wrong`, `dc_stale_parameter`). -/
theorem dc_restores_partial (ctrl : ℕ → C) (ts : List (Target V)) (w : World C V) (hd : (ts.filterMap Target.zap).Nodup)
    (hp : ∀ t ∈ ts, ∀ p v, t.param = some (p, v) → t.zap = none ∧ v = w.par p)
    (ops : List (Target V × V)) (hops : ∀ o ∈ ops, o.1 ∈ ts) :
    finish ts (takeAll ctrl 0 ts w).1 (ops.foldl (fun w o => setSweep o.1 o.2 w) (takeAll ctrl 0 ts w).2) = w := by
  have hkeep : ∀ (ops : List (Target V × V)) (u : World C V), (∀ o ∈ ops, o.1 ∈ ts) →
      (ops.foldl (fun w o => setSweep o.1 o.2 w) u).elt = u.elt ∧
      ∀ p, (¬ ∃ t ∈ ts, ∃ v, t.param = some (p, v)) → (ops.foldl (fun w o => setSweep o.1 o.2 w) u).par p = u.par p := by
    intro ops
    induction ops with
    | nil => intro u _; exact ⟨rfl, fun _ _ => rfl⟩
    | cons o ops ih =>
      intro u hu
      have h1 := ih (setSweep o.1 o.2 u) (fun x hx => hu x (List.mem_cons_of_mem _ hx))
      have hm := hu o List.mem_cons_self
      simp only [List.foldl_cons]
      refine ⟨?_, ?_⟩
      · rw [h1.1]; unfold setSweep; cases o.1.param <;> rfl
      · intro p hpn
        rw [h1.2 p hpn]
        unfold setSweep
        cases hq : o.1.param with
        | none => rfl
        | some pv =>
          have : p ≠ pv.1 := by
            intro h
            exact hpn ⟨o.1, hm, pv.2, by rw [hq, h]⟩
          simp [this]
  have k := hkeep ops (takeAll ctrl 0 ts w).2 hops
  have e1 := finish_elt ctrl ts hd 0 w (ops.foldl (fun w o => setSweep o.1 o.2 w) (takeAll ctrl 0 ts w).2) k.1
  have e2 := finish_par w.par ts (takeAll ctrl 0 ts w).1 (takeAll_length ctrl ts 0 w) hp
    (ops.foldl (fun w o => setSweep o.1 o.2 w) (takeAll ctrl 0 ts w).2) (fun p => ¬ ∃ t ∈ ts, ∃ v, t.param = some (p, v))
    (by intro p hpn; rw [k.2 p hpn, takeAll_par]) (by intro p; tauto)
  cases hfin : finish ts (takeAll ctrl 0 ts w).1 (ops.foldl (fun w o => setSweep o.1 o.2 w) (takeAll ctrl 0 ts w).2) with
  | mk a b =>
    rw [hfin] at e1 e2
    cases w
    simp only at e1 e2
    rw [e1, e2]

end restore

/-- elements 1 and 2 and parameter 0 swept, parameter set twice: all old values are back -/
example : finish [⟨some 1, none⟩, ⟨none, some (0, 50)⟩, ⟨some 2, none⟩]
    (takeAll (fun i => 100 + i) 0 [⟨some 1, none⟩, ⟨none, some (0, 50)⟩, ⟨some 2, none⟩] ⟨fun k => k, fun k => 50 + k⟩).1
    (List.foldl (fun w o => setSweep o.1 o.2 w)
      (takeAll (fun i => 100 + i) 0 [⟨some 1, none⟩, ⟨none, some (0, 50)⟩, ⟨some 2, none⟩] ⟨fun k => k, fun k => 50 + k⟩).2
      [(⟨none, some (0, 50)⟩, 7), (⟨none, some (0, 50)⟩, 8)]) = (⟨fun k => k, fun k => 50 + k⟩ : World ℕ ℕ) := by
  apply dc_restores_partial
  · decide
  · simp
  · simp

/-- **an element swept on two levels does not get its value back**: it is left with the first level's control. -/
theorem dc_same_element_twice_wrong :
    (finish [⟨some 1, none⟩, ⟨some 1, none⟩]
      (takeAll (fun i => 100 + i) 0 [⟨some 1, none⟩, ⟨some 1, none⟩] (⟨fun k => k, fun _ => ()⟩ : World ℕ Unit)).1
      (takeAll (fun i => 100 + i) 0 [⟨some 1, none⟩, ⟨some 1, none⟩] (⟨fun k => k, fun _ => ()⟩ : World ℕ Unit)).2).elt 1 = 100 := by
  decide

/-- **after a parameter sweep the generator cannot be swept**: the old parameter is swept instead, and afterwards it gets the
value it had at the earlier command, whatever it was set to in between. -/
theorem dc_stale_parameter {C V : Type _} (val : ℕ → V) (p : ℕ) (st : Option (ℕ × C)) (w : World C V) :
    let t := choose val (choose val ⟨none, none⟩ (.param p)) .number
    swept t = .param p ∧ (putBack t st w).par p = val p := by
  simp [choose, swept, putBack]

/-! ### AC -/

theorem ac_path (a : Ac) (x : ℕ → ℝ) (L : ℝ) (hx0 : x 0 = a.start)
    (h1 : ∀ k, inOrder a.start (x k) (if a.lin then a.stop - a.step / 100 else a.stop / a.step ^ (0.01 : ℝ)) = true ↔
      ((0 : ℝ) ≤ k ∧ (k : ℝ) ≤ L - 1 / 100) ∨ (L - 1 / 100 ≤ k ∧ (k : ℝ) ≤ 0))
    (h2 : ∀ k : ℕ, inOrder (x (k + 1)) a.start a.stop = true ↔ ((k + 1 : ℝ) ≤ 0 ∧ 0 ≤ L) ∨ (L ≤ 0 ∧ (0 : ℝ) ≤ k + 1))
    (hx : ∀ k, (if a.lin then x k + a.step else x k * a.step) = x (k + 1)) :
    ∀ fuel, (if 0 < L then ⌊L - 1 / 100⌋₊ + 1 else 0) < fuel →
      acVisits a fuel = some ((List.range ((if 0 < L then ⌊L - 1 / 100⌋₊ + 1 else 0) + 1)).map x) := by
  intro fuel hf
  have hnext : ∀ k, acNext a (x k) = if inOrder a.start (x k) (if a.lin then a.stop - a.step / 100 else a.stop / a.step ^ (0.01 : ℝ)) = true
      then (if inOrder (x (k + 1)) a.start a.stop = true then (false, x (k + 1)) else (true, x (k + 1))) else (false, x k) := by
    intro k
    unfold acNext
    simp only [hx]
    cases inOrder a.start (x k) (if a.lin then a.stop - a.step / 100 else a.stop / a.step ^ (0.01 : ℝ)) <;> simp
  by_cases hL : 0 < L
  · simp only [hL, if_true] at hf ⊢
    have := doWhile_path (fun f : ℝ => f) (acNext a) (⌊L - 1 / 100⌋₊ + 1) x ?_ ?_ fuel hf
    · rw [acVisits, ← hx0, this]; simp
    · intro i hi
      rw [hnext]
      have c1 := (h1 i).mpr (by
        by_cases hi0 : i = 0
        · subst hi0
          simp only [Nat.cast_zero, le_refl, true_and, and_true]
          exact le_total _ _
        · left
          refine ⟨by positivity, ?_⟩
          have hle : i ≤ ⌊L - 1 / 100⌋₊ := by omega
          have h01 : 0 ≤ L - 1 / 100 := by
            by_contra hneg
            rw [Nat.floor_of_nonpos (by linarith)] at hle
            omega
          exact (Nat.le_floor_iff h01).mp hle)
      have c2 : ¬ inOrder (x (i + 1)) a.start a.stop = true := by
        rw [h2]
        have : (0 : ℝ) ≤ i := by positivity
        rintro (⟨h, _⟩ | ⟨h, _⟩) <;> linarith
      rw [if_pos c1, if_neg c2]
    · rw [hnext]
      have c1 : ¬ inOrder a.start (x (⌊L - 1 / 100⌋₊ + 1)) (if a.lin then a.stop - a.step / 100 else a.stop / a.step ^ (0.01 : ℝ)) = true := by
        rw [h1]
        have := Nat.lt_floor_add_one (L - 1 / 100)
        have hp : (0 : ℝ) ≤ (⌊L - 1 / 100⌋₊ : ℝ) := by positivity
        push_cast
        rintro (⟨_, h⟩ | ⟨_, h⟩) <;> linarith
      rw [if_neg c1]
  · simp only [hL, if_false] at hf ⊢
    have := doWhile_path (fun f : ℝ => f) (acNext a) 0 x (by omega) ?_ fuel hf
    · rw [acVisits, ← hx0, this]; simp
    · rw [hnext]
      have c2 := (h2 0).mpr (by right; norm_num; linarith)
      rw [if_pos c2]
      cases inOrder a.start (x 0) (if a.lin then a.stop - a.step / 100 else a.stop / a.step ^ (0.01 : ℝ)) <;> rfl

/-- (specification) number of the last point of an AC sweep of `L` steps -/
noncomputable def acLast (L : ℝ) : ℕ := if 0 < L then ⌊L - 1 / 100⌋₊ + 1 else 0

theorem acLast_grid (n : ℕ) : acLast n = n := by
  unfold acLast
  rcases Nat.eq_zero_or_pos n with rfl | h
  · simp
  · obtain ⟨m, rfl⟩ : ∃ m, n = m + 1 := ⟨n - 1, by omega⟩
    have : ⌊((m + 1 : ℕ) : ℝ) - 1 / 100⌋₊ = m := by
      rw [Nat.floor_eq_iff] <;> push_cast
      · constructor <;> norm_num <;> linarith
      · have : (0 : ℝ) ≤ m := by positivity
        linarith
    rw [if_pos (by positivity), this]

theorem inOrder_lin {start step : ℝ} (hs : step ≠ 0) (a b c : ℝ) :
    inOrder (start + a * step) (start + b * step) (start + c * step) = true ↔ (a ≤ b ∧ b ≤ c) ∨ (c ≤ b ∧ b ≤ a) := by
  unfold inOrder
  rw [decide_eq_true_iff]
  simp only [add_le_add_iff_left]
  rcases lt_or_gt_of_ne hs with h | h
  · simp only [mul_le_mul_right_of_neg h]; tauto
  · simp only [mul_le_mul_iff_left₀ h]

/-- **C36, linear**: the frequencies are `start + i*step` for `i` up to `acLast`, which is the number of steps when `stop` is on
the grid (`acLast_grid`), one more than fit otherwise (`ac_overshoots`), 0 when the step leads away from `stop`; the sweep ends. -/
theorem ac_linear (a : Ac) (hl : a.lin = true) (hs : a.step ≠ 0) (fuel : ℕ) (hf : acLast ((a.stop - a.start) / a.step) < fuel) :
    acVisits a fuel = some ((List.range (acLast ((a.stop - a.start) / a.step) + 1)).map fun i : ℕ => a.start + i * a.step) := by
  have e : a.stop = a.start + (a.stop - a.start) / a.step * a.step := by field_simp; ring
  generalize (a.stop - a.start) / a.step = L at *
  refine ac_path a (fun i => a.start + i * a.step) L (by simp) ?_ ?_ ?_ fuel hf
  · intro k
    have e1 : a.start = a.start + 0 * a.step := by ring
    have e2 : a.stop - a.step / 100 = a.start + (L - 1 / 100) * a.step := by rw [e]; ring
    simp only [hl, if_true, e2]
    conv_lhs => enter [1, 1]; rw [e1]
    rw [inOrder_lin hs]
  · intro k
    have e1 : a.start = a.start + 0 * a.step := by ring
    have e2 : inOrder (a.start + ((k + 1 : ℕ) : ℝ) * a.step) a.start a.stop =
      inOrder (a.start + ((k + 1 : ℕ) : ℝ) * a.step) (a.start + 0 * a.step) (a.start + L * a.step) := by rw [← e, ← e1]
    rw [e2, inOrder_lin hs]
    push_cast
    rfl
  · intro k
    simp only [hl, if_true]
    push_cast
    ring

/-- **C36, point count, partial**: `lin n` with `n ≥ 2` visits exactly `n` frequencies, evenly spaced, from `start` to `stop`. -/
theorem ac_points_partial (start stop : ℝ) (n : ℕ) (hn : 2 ≤ n) (hne : start ≠ stop) (fuel : ℕ) (hf : n ≤ fuel) :
    acVisits (acSetup .linPts start stop n) fuel =
      some ((List.range n).map fun i : ℕ => start + i * ((stop - start) / (n - 1))) ∧
    start + ((n - 1 : ℕ) : ℝ) * ((stop - start) / (n - 1)) = stop := by
  have hn1 : ((n : ℝ) - 1) ≠ 0 := by
    have : (2 : ℝ) ≤ n := by exact_mod_cast hn
    linarith
  have hd : stop - start ≠ 0 := sub_ne_zero.mpr (Ne.symm hne)
  have hif : (if (n : ℝ) ≤ 2 then (2 : ℝ) else n) = n := by
    split
    · rename_i h
      have : (2 : ℝ) ≤ n := by exact_mod_cast hn
      linarith
    · rfl
  have hstep : (stop - start) / ((n : ℝ) - 1) ≠ 0 := div_ne_zero hd hn1
  have e : acSetup .linPts start stop n = ⟨start, stop, (stop - start) / (n - 1), true⟩ := by
    simp only [acSetup, hif, hstep, if_false]
  have hc : ((n - 1 : ℕ) : ℝ) = n - 1 := by rw [Nat.cast_sub (by omega)]; simp
  have hL : (stop - start) / ((stop - start) / ((n : ℝ) - 1)) = ((n - 1 : ℕ) : ℝ) := by
    rw [hc]; field_simp
  refine ⟨?_, by rw [hc]; field_simp; ring⟩
  rw [e]
  have := ac_linear ⟨start, stop, (stop - start) / (n - 1), true⟩ rfl hstep fuel (by
    simp only [hL, acLast_grid]; omega)
  rw [this]
  simp only [hL, acLast_grid]
  rw [show n - 1 + 1 = n by omega]

theorem ac_still (a : Ac) (hl : a.lin = true) (h : a.start = a.stop) (fuel : ℕ) (hf : 0 < fuel) : acVisits a fuel = some [a.start] := by
  have := doWhile_path (fun f : ℝ => f) (acNext a) 0 (fun _ => a.start) (by omega) ?_ fuel hf
  · simp [acVisits, this]
  · unfold acNext
    have : inOrder (a.start + a.step) a.start a.stop = true := by
      unfold inOrder
      rw [decide_eq_true_iff, ← h]
      simp only [le_refl, true_and, and_true]
      exact le_total _ _
    simp only [hl, if_true, this]
    split <;> rfl

/-- **C36, one frequency**: with `start = stop` every linear form visits it once. -/
theorem ac_single (mode : Mode) (f stepIn : ℝ) (hm : mode = .onePt ∨ mode = .linStep ∨ mode = .linPts) (fuel : ℕ) (hf : 0 < fuel) :
    acVisits (acSetup mode f f stepIn) fuel = some [f] := by
  have e : (acSetup mode f f stepIn).lin = true ∧ (acSetup mode f f stepIn).start = f ∧ (acSetup mode f f stepIn).stop = f := by
    rcases hm with rfl | rfl | rfl <;> simp only [acSetup] <;> split <;> simp
  have := ac_still _ e.1 (by rw [e.2.1, e.2.2]) fuel hf
  rw [this, e.2.1]

/-- **one point is not possible** when `start` and `stop` differ: `lin 1` visits two. -/
theorem ac_points_one_wrong : acVisits (acSetup .linPts 1 3 1) 5 = some [1, 3] := by
  have e : acSetup .linPts 1 3 1 = ⟨1, 3, 2, true⟩ := by norm_num [acSetup]
  rw [e, ac_linear _ rfl (by norm_num)]
  · have : acLast ((3 - 1) / 2) = 1 := by
      have := acLast_grid 1
      norm_num at this ⊢; exact this
    simp only [this]
    simp [List.range_succ]; norm_num
  · have : acLast ((3 - 1) / 2) = 1 := by
      have := acLast_grid 1
      norm_num at this ⊢; exact this
    simp only [this]; norm_num

/-- **C36 is false when `stop` is not on the grid**: 100 to 1000 by 400 also visits 1300. -/
theorem ac_overshoots : acVisits (acSetup .linStep 100 1000 400) 5 = some [100, 500, 900, 1300] := by
  have e : acSetup .linStep 100 1000 400 = ⟨100, 1000, 400, true⟩ := by norm_num [acSetup]
  have hf : acLast ((1000 - 100) / 400) = 3 := by
    unfold acLast
    rw [if_pos (by norm_num)]
    have : ⌊((1000 : ℝ) - 100) / 400 - 1 / 100⌋₊ = 2 := by rw [Nat.floor_eq_iff] <;> norm_num
    rw [this]
  rw [e, ac_linear _ rfl (by norm_num)]
  · simp only [hf]
    simp [List.range_succ]; norm_num
  · simp only [hf]; norm_num

/-- **C36, multiplying sweeps, partial**: the frequencies are `start * step^i`, as for the linear sweep; `stop` and `start` must
have the same sign (see `ac_log_to_zero_endless`). -/
theorem ac_log_partial (a : Ac) (hl : a.lin = false) (h0 : a.start ≠ 0) (hs : 0 < a.step) (hs1 : a.step ≠ 1) (hr : 0 < a.stop / a.start)
    (fuel : ℕ) (hf : acLast (ratioSpan a.start a.stop a.step) < fuel) :
    acVisits a fuel = some ((List.range (acLast (ratioSpan a.start a.stop a.step) + 1)).map fun i : ℕ => a.start * a.step ^ i) := by
  have e := stop_eq h0 hs hs1 hr
  generalize ratioSpan a.start a.stop a.step = L at *
  have e1 : a.start = a.start * a.step ^ (0 : ℝ) := by simp
  refine ac_path a (fun i => a.start * a.step ^ i) L (by simp) ?_ ?_ ?_ fuel hf
  · intro k
    have e2 : a.stop / a.step ^ (0.01 : ℝ) = a.start * a.step ^ (L - 1 / 100) := by
      rw [e, Real.rpow_sub hs]; norm_num [mul_div_assoc]
    simp only [hl, Bool.false_eq_true, if_false, e2]
    rw [← Real.rpow_natCast]
    conv_lhs => enter [1, 1]; rw [e1]
    rw [inOrder_log h0 hs hs1]
  · intro k
    rw [← Real.rpow_natCast]
    have e2 : inOrder (a.start * a.step ^ ((k + 1 : ℕ) : ℝ)) a.start a.stop =
      inOrder (a.start * a.step ^ ((k + 1 : ℕ) : ℝ)) (a.start * a.step ^ (0 : ℝ)) (a.start * a.step ^ L) := by rw [← e, ← e1]
    rw [e2, inOrder_log h0 hs hs1]
    push_cast
    rfl
  · intro k
    simp only [hl, Bool.false_eq_true, if_false]
    rw [pow_succ]; ring

/-- **C36, decades**: `n` points per decade. -/
theorem ac_decade (start stop : ℝ) (n : ℕ) (hn : 0 < n) (h0 : 0 < start) (h1 : 0 < stop) (fuel : ℕ)
    (hf : acLast (n * Real.logb 10 (stop / start)) < fuel) :
    acVisits (acSetup .decade start stop n) fuel =
      some ((List.range (acLast (n * Real.logb 10 (stop / start)) + 1)).map fun i : ℕ => start * 10 ^ ((i : ℝ) / n)) := by
  have hn0 : (n : ℝ) ≠ 0 := by positivity
  have hs : 0 < (10 : ℝ) ^ (1 / (n : ℝ)) := by positivity
  have e : acSetup .decade start stop n = ⟨start, stop, 10 ^ (1 / (n : ℝ)), false⟩ := by
    simp only [acSetup, hn0, if_false, hs.ne']
  have hs1 : (10 : ℝ) ^ (1 / (n : ℝ)) ≠ 1 := by
    have := Real.one_lt_rpow (show (1 : ℝ) < 10 by norm_num) (show 0 < 1 / (n : ℝ) by positivity)
    exact this.ne'
  have hL : ratioSpan start stop (10 ^ (1 / (n : ℝ))) = n * Real.logb 10 (stop / start) := by
    unfold ratioSpan Real.logb
    rw [Real.log_rpow (by norm_num)]
    have : Real.log 10 ≠ 0 := (Real.log_pos (by norm_num)).ne'
    field_simp
  rw [e, ac_log_partial _ rfl h0.ne' hs hs1 (by positivity)]
  · simp only [hL]
    congr 1
    apply List.map_congr_left
    intro i _
    rw [← Real.rpow_natCast, ← Real.rpow_mul (by norm_num)]
    congr 2
    ring
  · simp only [hL]; exact hf

/-- **"every sweep ends" is false**: a shrinking sweep to 0 or a negative frequency never does. -/
theorem ac_log_to_zero_endless (a : Ac) (hl : a.lin = false) (h0 : 0 < a.start) (hs : 0 < a.step) (hs1 : a.step < 1) (hr : a.stop ≤ 0)
    (fuel : ℕ) : acVisits a fuel = none := by
  have hp : 0 < a.step ^ (0.01 : ℝ) := Real.rpow_pos_of_pos hs _
  have h : ∀ fuel f, 0 < f → f ≤ a.start → doWhile (fun f : ℝ => some (f, [f])) (acNext a) fuel f = none := by
    intro fuel
    induction fuel with
    | zero => intro f _ _; rfl
    | succ n ih =>
      intro f h1 h2
      have c1 : inOrder a.start f (a.stop / a.step ^ (0.01 : ℝ)) = true := by
        unfold inOrder
        rw [decide_eq_true_iff]
        exact Or.inr ⟨le_trans (div_nonpos_of_nonpos_of_nonneg hr hp.le) h1.le, h2⟩
      have h3 : f * a.step < a.start := lt_of_lt_of_le (by nlinarith) h2
      have c2 : inOrder (f * a.step) a.start a.stop = false := by
        unfold inOrder
        rw [decide_eq_false_iff_not]
        rintro (⟨_, b⟩ | ⟨_, b⟩) <;> linarith
      have e : acNext a f = (true, f * a.step) := by
        simp [acNext, hl, c1, c2]
      simp [doWhile, e, ih (f * a.step) (mul_pos h1 hs) h3.le]
  rw [acVisits, h fuel a.start h0 le_rfl]; rfl

/-- **C36, the other sweeps end**: a multiplying sweep that starts at 0 or has step 1 visits only its start. -/
theorem ac_log_degenerate (a : Ac) (hl : a.lin = false) (h : a.start = 0 ∨ a.step = 1) (fuel : ℕ) (hf : 0 < fuel) :
    acVisits a fuel = some [a.start] := by
  have := doWhile_path (fun f : ℝ => f) (acNext a) 0 (fun _ => a.start) (by omega) ?_ fuel hf
  · simp [acVisits, this]
  · unfold acNext
    have e : a.start * a.step = a.start := by rcases h with h | h <;> simp [h]
    have : inOrder a.start a.start a.stop = true := by
      unfold inOrder
      rw [decide_eq_true_iff]
      simp only [le_refl, true_and, and_true]
      exact le_total _ _
    simp only [hl, Bool.false_eq_true, if_false, e, this, if_true]
    split <;> rfl

/-- 3 points from 1 to 2; 1 to 100 Hz, 2 points per decade; `100 0 * .5` -/
example : acVisits (acSetup .linPts 1 2 (3 : ℕ)) 5 = some ((List.range 3).map fun i : ℕ => (1 : ℝ) + i * ((2 - 1) / ((3 : ℕ) - 1))) :=
  (ac_points_partial 1 2 3 (by norm_num) (by norm_num) 5 (by norm_num)).1
example : acVisits (acSetup .decade 1 100 (2 : ℕ)) 9 = some ((List.range 5).map fun i : ℕ => (1 : ℝ) * 10 ^ ((i : ℝ) / (2 : ℕ))) := by
  have hL : ((2 : ℕ) : ℝ) * Real.logb 10 (100 / 1) = (4 : ℕ) := by
    rw [show (100 : ℝ) / 1 = 10 ^ (2 : ℝ) by norm_num, Real.logb_rpow (by norm_num) (by norm_num)]; norm_num
  have := ac_decade 1 100 2 (by norm_num) (by norm_num) (by norm_num) 9 (by rw [hL, acLast_grid]; norm_num)
  rw [hL, acLast_grid] at this
  exact this
example (fuel : ℕ) : acVisits (acSetup .times 100 0 (1 / 2)) fuel = none := by
  have e : acSetup .times 100 0 (1 / 2) = ⟨100, 0, 1 / 2, false⟩ := by norm_num [acSetup]
  rw [e]
  exact ac_log_to_zero_endless _ rfl (by norm_num) (by norm_num) (by norm_num) (by norm_num) fuel
example : acVisits ⟨0, 10, 2, false⟩ 1 = some [0] := ac_log_degenerate _ rfl (Or.inl rfl) 1 (by norm_num)

end Gnucap.Sweep
