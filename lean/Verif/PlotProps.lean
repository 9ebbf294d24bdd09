import Verif.PlotModel
import Verif.FtosWidth
import Verif.OutProps
import Mathlib.Tactic.FieldSimp

/-!
# Plots made of characters (C81): theorems
-/
namespace Gnucap.Plot
open Gnucap.Scan Gnucap.Num Gnucap.Out

/-! ## The scale -/

/-- **C81, scale**: with a width from 10 up there is room for the scale in the arrays. -/
theorem scale_range (o : ℕ) (h : 10 ≤ o) (h2 : o < 2 ^ 31) : consScale o = min o 512 - 10 ∧ 0 ≤ consScale o ∧ consScale o + 1 < maxWidth := by
  unfold consScale outWidth asInt maxWidth indent
  rw [if_pos h2]
  push_cast
  omega

/-! ## Rounding -/

theorem rnd_near (x : ℚ) : |(rnd x : ℚ) - x| ≤ 1 / 2 := by
  unfold rnd
  rw [abs_le]
  constructor
  · have := Int.lt_floor_add_one (x + 1 / 2); linarith
  · have := Int.floor_le (x + 1 / 2); linarith

theorem rnd_mono {x y : ℚ} (h : x ≤ y) : rnd x ≤ rnd y := Int.floor_le_floor (by linarith)

theorem rnd_int (z : ℤ) : rnd z = z := by
  unfold rnd
  rw [Int.floor_eq_iff]
  constructor <;> linarith

theorem rnd_add (z : ℤ) (x : ℚ) : rnd (z + x) = z + rnd x := by
  unfold rnd
  rw [add_assoc, Int.floor_intCast_add]

/-! ## The marks -/

theorem ticks_mem (incr s : ℚ) (hi : 0 < incr) (n : ℕ) : ∀ (k : ℕ) (t : ℤ),
    t ∈ ticks incr s n (k * incr) ↔ ∃ j : ℕ, k ≤ j ∧ j < k + n ∧ j * incr < s ∧ t = rnd (j * incr) := by
  induction n with
  | zero => intro k t; simp only [ticks, List.not_mem_nil, false_iff]; rintro ⟨j, h1, h2, -⟩; omega
  | succ n ih =>
    intro k t
    rw [ticks]
    have e : (k : ℚ) * incr + incr = ((k + 1 : ℕ) : ℚ) * incr := by push_cast; ring
    split
    · rename_i h
      rw [List.mem_cons, e, ih]
      constructor
      · rintro (rfl | ⟨j, h1, h2, h3⟩)
        · exact ⟨k, le_refl _, by omega, h, rfl⟩
        · exact ⟨j, by omega, by omega, h3⟩
      · rintro ⟨j, h1, h2, h3, h4⟩
        rcases Nat.eq_or_lt_of_le h1 with rfl | h1
        · exact .inl h4
        · exact .inr ⟨j, by omega, by omega, h3, h4⟩
    · rename_i h
      simp only [List.not_mem_nil, false_iff]
      rintro ⟨j, h1, h2, h3, -⟩
      have : (k : ℚ) * incr ≤ j * incr := by
        have : (k : ℚ) ≤ j := by exact_mod_cast h1
        exact mul_le_mul_of_nonneg_right this hi.le
      linarith

/-- **C81, marks**: there is a mark at every division, at the nearest column, and nowhere else. -/
theorem ticks_at (s : ℤ) (ydiv : ℚ) (hs : 0 < s) (hy : 0 < ydiv) (t : ℤ) :
    t ∈ ticksOf s ydiv ↔ ∃ m : ℕ, m < ydiv ∧ t = rnd (s * (m / ydiv)) := by
  unfold ticksOf
  rw [if_neg (ne_of_gt hy)]
  have hsq : (0 : ℚ) < s := by exact_mod_cast hs
  have h := ticks_mem (s / ydiv) s (div_pos hsq hy) (⌈ydiv⌉₊ + 1) 0 t
  rw [Nat.cast_zero, zero_mul] at h
  rw [h]
  have key : ∀ j : ℕ, (j : ℚ) * (s / ydiv) = s * (j / ydiv) := fun j => by ring
  have hlt : ∀ j : ℕ, (j : ℚ) * (s / ydiv) < s ↔ (j : ℚ) < ydiv := by
    intro j
    rw [show (j : ℚ) * (s / ydiv) = s * j / ydiv by ring, div_lt_iff₀ hy]
    constructor
    · intro h; exact lt_of_mul_lt_mul_left h hsq.le
    · intro h; exact mul_lt_mul_of_pos_left h hsq
  constructor
  · rintro ⟨j, -, -, h3, h4⟩
    exact ⟨j, (hlt j).mp h3, by rw [h4, key]⟩
  · rintro ⟨m, h1, h2⟩
    refine ⟨m, by omega, ?_, (hlt m).mpr h1, by rw [h2, key]⟩
    have : m < ⌈ydiv⌉₊ := Nat.lt_ceil.mpr h1
    omega

example : (0 : ℤ) < 70 ∧ (0 : ℚ) < 4 := by norm_num

theorem ticks_range (s : ℤ) (ydiv : ℚ) (hs : 0 ≤ s) (hy : 0 ≤ ydiv) (t : ℤ) (h : t ∈ ticksOf s ydiv) : 0 ≤ t ∧ t ≤ s := by
  rcases eq_or_lt_of_le hs with rfl | hs
  · exfalso
    unfold ticksOf at h
    split at h
    · simp at h
    · rw [ticks] at h; simp at h
  rcases eq_or_lt_of_le hy with rfl | hy
  · unfold ticksOf at h
    rw [if_pos rfl, if_pos hs] at h
    simp at h; omega
  obtain ⟨m, h1, rfl⟩ := (ticks_at s ydiv hs hy t).mp h
  have hsq : (0 : ℚ) < s := by exact_mod_cast hs
  have h0 : (0 : ℚ) ≤ m / ydiv := div_nonneg (by positivity) hy.le
  have h2 : (m : ℚ) / ydiv ≤ 1 := by rw [div_le_one hy]; exact h1.le
  constructor
  · have := rnd_mono (x := ((0 : ℤ) : ℚ)) (y := s * (m / ydiv)) (by push_cast; positivity)
    rwa [rnd_int] at this
  · have := rnd_mono (x := s * (m / ydiv)) (y := (s : ℚ)) (by nlinarith)
    rwa [rnd_int] at this

/-! ## Border and grid -/

theorem poke_some (a : List Char) (i : ℤ) (c : Char) (h : 0 ≤ i) (h2 : i < a.length) :
    ∃ b, poke a i c = some b ∧ b.length = a.length ∧ ∀ j : ℕ, j < a.length → b[j]? = if (j : ℤ) = i then some c else a[j]? := by
  refine ⟨a.set i.toNat c, by rw [poke, if_pos ⟨h, h2⟩], by simp, ?_⟩
  intro j hj
  rw [List.getElem?_set]
  by_cases e : i.toNat = j
  · rw [if_pos e, if_pos (by omega), if_pos (by omega)]
  · rw [if_neg e, if_neg (by omega)]

theorem pokes_some (c : Char) (l : List ℤ) : ∀ a : List Char, (∀ i ∈ l, 0 ≤ i ∧ i < a.length) →
    ∃ b, pokes c a l = some b ∧ b.length = a.length ∧ ∀ j : ℕ, j < a.length → b[j]? = if (j : ℤ) ∈ l then some c else a[j]? := by
  induction l with
  | nil => intro a _; exact ⟨a, rfl, rfl, by simp⟩
  | cons i l ih =>
    intro a h
    obtain ⟨b, e1, e2, e3⟩ := poke_some a i c (h i (by simp)).1 (h i (by simp)).2
    obtain ⟨d, f1, f2, f3⟩ := ih b (fun j hj => by rw [e2]; exact h j (by simp [hj]))
    refine ⟨d, by rw [pokes, e1]; exact f1, by omega, ?_⟩
    intro j hj
    rw [f3 j (by omega), e3 j hj]
    by_cases h1 : (j : ℤ) ∈ l
    · simp [h1]
    · by_cases h2 : (j : ℤ) = i
      · simp [h2]
      · simp [h1, h2]

theorem cstr_eq (a : List Char) (n : ℕ) (f : ℕ → Char) (h1 : ∀ j < n, a[j]? = some (f j)) (h2 : ∀ j < n, f j ≠ nul) (h3 : a[n]? = some nul) :
    cstr a = (List.range n).map f := by
  induction n generalizing a f with
  | zero =>
    cases a with
    | nil => simp at h3
    | cons c a => simp at h3; simp [cstr, h3]
  | succ n ih =>
    cases a with
    | nil => simp at h3
    | cons c a =>
      have hc : c = f 0 := by simpa using h1 0 (by omega)
      have := ih a (fun j => f (j + 1)) (fun j hj => by simpa using h1 (j + 1) (by omega)) (fun j hj => h2 (j + 1) (by omega)) (by simpa using h3)
      unfold cstr at this ⊢
      rw [List.takeWhile_cons, if_pos (by simpa [hc] using h2 0 (by omega)), this, List.range_succ_eq_map, hc]
      simp [Function.comp_def]

/-- Specification: the border and the grid, character by character -/
def borderAt (s : ℤ) (ydiv : ℚ) (j : ℕ) : Char := if (j : ℤ) = s ∨ (j : ℤ) ∈ ticksOf s ydiv then '+' else '-'
def gridAt (s : ℤ) (ydiv : ℚ) (j : ℕ) : Char := if j = 0 ∨ (j : ℤ) = s then '|' else if (j : ℤ) ∈ ticksOf s ydiv then '.' else ' '

/-- **C81, border and grid**: with a width from 10 up nothing is written outside the arrays, the border has `+` at every mark and at the
end and `-` elsewhere, the grid has `|` at both ends and `.` at every mark between, whatever was in the arrays before. -/
theorem grid (o : ℕ) (h : 10 ≤ o) (h2 : o < 2 ^ 31) (ydiv : ℚ) (hy : 0 ≤ ydiv) (border empty : List Char) (hb : border.length = maxWidth + 1)
    (he : empty.length = maxWidth + 1) :
    ∃ b e, build (consScale o) ydiv border empty = some (b, e) ∧ b.length = maxWidth + 1 ∧ e.length = maxWidth + 1 ∧
      cstr b = (List.range ((consScale o).toNat + 1)).map (borderAt (consScale o) ydiv) ∧
      cstr e = (List.range ((consScale o).toNat + 1)).map (gridAt (consScale o) ydiv) ∧
      (∀ j < (consScale o).toNat + 1, e[j]? = some (gridAt (consScale o) ydiv j)) ∧ e[(consScale o).toNat + 1]? = some nul := by
  obtain ⟨-, hs0, hs1⟩ := scale_range o h h2
  generalize consScale o = s at hs0 hs1 ⊢
  have hjs : ∀ i ∈ (List.range s.toNat).map (fun (i : ℕ) => (i : ℤ)), 0 ≤ i ∧ i < s := by
    intro i hi
    obtain ⟨k, hk, rfl⟩ := List.mem_map.mp hi
    have := List.mem_range.mp hk
    omega
  have hmem : ∀ j : ℕ, (j : ℤ) ∈ (List.range s.toNat).map (fun (i : ℕ) => (i : ℤ)) ↔ (j : ℤ) < s := by
    intro j
    simp only [List.mem_map, List.mem_range]
    constructor
    · rintro ⟨k, hk, e⟩; omega
    · intro hj; exact ⟨j, by omega, rfl⟩
  have htk := ticks_range s ydiv hs0 hy
  have hm : (maxWidth : ℤ) = 512 := rfl
  obtain ⟨b1, p1, q1, r1⟩ := pokes_some '-' _ border (fun i hi => ⟨(hjs i hi).1, by have := (hjs i hi).2; rw [hb]; push_cast; omega⟩)
  obtain ⟨e1, p2, q2, r2⟩ := pokes_some ' ' _ empty (fun i hi => ⟨(hjs i hi).1, by have := (hjs i hi).2; rw [he]; push_cast; omega⟩)
  obtain ⟨b2, p3, q3, r3⟩ := pokes_some '+' (ticksOf s ydiv) b1 (fun i hi => ⟨(htk i hi).1, by have := (htk i hi).2; rw [q1, hb]; push_cast; omega⟩)
  obtain ⟨e2, p4, q4, r4⟩ := pokes_some '.' (ticksOf s ydiv) e1 (fun i hi => ⟨(htk i hi).1, by have := (htk i hi).2; rw [q2, he]; push_cast; omega⟩)
  obtain ⟨b3, p5, q5, r5⟩ := poke_some b2 s '+' hs0 (by rw [q3, q1, hb]; push_cast; omega)
  obtain ⟨b4, p6, q6, r6⟩ := poke_some b3 (s + 1) nul (by omega) (by rw [q5, q3, q1, hb]; push_cast; omega)
  obtain ⟨e3, p7, q7, r7⟩ := poke_some e2 0 '|' (by omega) (by rw [q4, q2, he]; push_cast; omega)
  obtain ⟨e4, p8, q8, r8⟩ := poke_some e3 s '|' hs0 (by rw [q7, q4, q2, he]; push_cast; omega)
  obtain ⟨e5, p9, q9, r9⟩ := poke_some e4 (s + 1) nul (by omega) (by rw [q8, q7, q4, q2, he]; push_cast; omega)
  have hL : s.toNat + 1 < maxWidth + 1 := by omega
  have hbj : ∀ j < s.toNat + 1, b4[j]? = some (borderAt s ydiv j) := by
    intro j hj
    have hjl : j < border.length := by omega
    rw [r6 j (by omega), if_neg (by omega), r5 j (by omega), r3 j (by omega), r1 j hjl, borderAt]
    by_cases c1 : (j : ℤ) = s
    · simp [c1]
    · by_cases c2 : (j : ℤ) ∈ ticksOf s ydiv
      · simp [c1, c2]
      · rw [if_neg c1, if_neg c2, if_pos ((hmem j).mpr (by omega)), if_neg (by tauto)]
  have hej : ∀ j < s.toNat + 1, e5[j]? = some (gridAt s ydiv j) := by
    intro j hj
    have hjl : j < empty.length := by omega
    rw [r9 j (by omega), if_neg (by omega), r8 j (by omega), r7 j (by omega), r4 j (by omega), r2 j hjl, gridAt]
    by_cases c1 : (j : ℤ) = s
    · simp [c1]
    · by_cases c0 : j = 0
      · simp [c0]
      · rw [if_neg c1, if_neg (by omega), if_neg (show ¬ (j = 0 ∨ (j : ℤ) = s) from not_or.mpr ⟨c0, c1⟩)]
        by_cases c2 : (j : ℤ) ∈ ticksOf s ydiv
        · simp [c2]
        · rw [if_neg c2, if_pos ((hmem j).mpr (by omega)), if_neg c2]
  have hbn : b4[s.toNat + 1]? = some nul := by rw [r6 _ (by omega), if_pos (by omega)]
  have hen : e5[s.toNat + 1]? = some nul := by rw [r9 _ (by omega), if_pos (by omega)]
  refine ⟨b4, e5, ?_, by omega, by omega, ?_, ?_, hej, hen⟩
  · simp [build, p1, p2, p3, p4, p5, p6, p7, p8, p9]
  · refine cstr_eq b4 _ _ hbj ?_ hbn
    intro j _
    unfold borderAt
    split <;> decide
  · refine cstr_eq e5 _ _ hej ?_ hen
    intro j _
    unfold gridAt
    split
    · decide
    · split <;> decide

example : 10 ≤ 80 ∧ 80 < 2 ^ 31 ∧ (List.replicate 513 'x').length = maxWidth + 1 := by refine ⟨by norm_num, by norm_num, ?_⟩; rw [List.length_replicate]; rfl

/-- **C81 fails for narrow output**: with a width below 10 (or one that is no `int`) the border is written before the array. -/
theorem narrow_outside (o : ℕ) (h : o < 10 ∨ 2 ^ 31 ≤ o ∧ o < 2 ^ 32) (ydiv : ℚ) (border empty : List Char) :
    build (consScale o) ydiv border empty = none := by
  have hs : consScale o < 0 := by
    unfold consScale outWidth asInt maxWidth indent
    split <;> omega
  generalize consScale o = s at hs
  have h1 : s.toNat = 0 := by omega
  have hsq : ¬ (0 : ℚ) < s := by
    have : (s : ℚ) < 0 := by exact_mod_cast hs
    linarith
  have h2 : ticksOf s ydiv = [] := by
    unfold ticksOf
    split
    · rw [if_neg (by omega)]
    · rw [ticks, if_neg hsq]
  have h3 : ∀ a, poke a s '+' = none := fun a => by rw [poke, if_neg (by omega)]
  simp [build, h1, h2, pokes, h3]

example : 9 < 10 ∨ 2 ^ 31 ≤ 9 ∧ 9 < 2 ^ 32 := by norm_num

/-! ## Points -/

/-- **C81, points stay inside** -/
theorem point_range (y lo hi : ℚ) (s : ℤ) (hs : 0 ≤ s) (p : ℤ) (h : point y lo hi s = some p) : 0 ≤ p ∧ p ≤ s := by
  unfold point at h
  rcases hc : castInt (rnd (s * (y - lo) / (hi - lo))) with _ | z
  · rw [hc] at h; cases h
  · rw [hc] at h
    simp only [Option.map_some, Option.some.injEq] at h
    subst h
    split <;> split <;> omega

theorem scaled (y lo hi : ℚ) (hlt : lo < hi) (s : ℤ) (hs : 0 ≤ s) (h1 : lo ≤ y) (h2 : y ≤ hi) :
    0 ≤ (s : ℚ) * (y - lo) / (hi - lo) ∧ (s : ℚ) * (y - lo) / (hi - lo) ≤ s := by
  have hsq : (0 : ℚ) ≤ s := by exact_mod_cast hs
  have hd : 0 < hi - lo := by linarith
  constructor
  · exact div_nonneg (mul_nonneg hsq (by linarith)) hd.le
  · rw [div_le_iff₀ hd]
    exact mul_le_mul_of_nonneg_left (by linarith) hsq

/-- **C81, points**: a value within the limits is drawn at the column nearest to its place on the scale. -/
theorem point_near (y lo hi : ℚ) (hlt : lo < hi) (s : ℤ) (hs : 0 ≤ s) (hs2 : s < 512) (h1 : lo ≤ y) (h2 : y ≤ hi) :
    ∃ p, point y lo hi s = some p ∧ |(p : ℚ) - s * (y - lo) / (hi - lo)| ≤ 1 / 2 := by
  obtain ⟨a, b⟩ := scaled y lo hi hlt s hs h1 h2
  have r1 : 0 ≤ rnd ((s : ℚ) * (y - lo) / (hi - lo)) := by
    have := rnd_mono (x := ((0 : ℤ) : ℚ)) (by push_cast; exact a)
    rwa [rnd_int] at this
  have r2 : rnd ((s : ℚ) * (y - lo) / (hi - lo)) ≤ s := by
    have := rnd_mono b
    rwa [rnd_int] at this
  refine ⟨rnd ((s : ℚ) * (y - lo) / (hi - lo)), ?_, rnd_near _⟩
  unfold point
  rw [castInt, if_pos (by constructor <;> omega)]
  simp only [Option.map_some, Option.some.injEq]
  rw [if_neg (by omega), if_neg (by omega)]

/-- **C81, order**: what is not lower is not drawn lower, within the limits or not. -/
theorem point_mono (y y' lo hi : ℚ) (hlt : lo < hi) (s : ℤ) (hs : 0 ≤ s) (h : y ≤ y') (p p' : ℤ) (hp : point y lo hi s = some p)
    (hp' : point y' lo hi s = some p') : p ≤ p' := by
  have hsq : (0 : ℚ) ≤ s := by exact_mod_cast hs
  have hd : 0 < hi - lo := by linarith
  have hm : rnd ((s : ℚ) * (y - lo) / (hi - lo)) ≤ rnd ((s : ℚ) * (y' - lo) / (hi - lo)) :=
    rnd_mono (by
      rw [div_le_div_iff_of_pos_right hd]
      exact mul_le_mul_of_nonneg_left (by linarith) hsq)
  unfold point castInt at hp hp'
  split at hp
  · split at hp'
    · simp only [Option.map_some, Option.some.injEq] at hp hp'
      subst hp hp'
      repeat' split
      all_goals omega
    · cases hp'
  · cases hp

/-- **C81, limits**: values beyond a limit are drawn at the end of the scale, if their place on it is an `int`. -/
theorem point_beyond_partial (y lo hi : ℚ) (hlt : lo < hi) (s : ℤ) (hs : 0 ≤ s) (p : ℤ) (hp : point y lo hi s = some p) :
    (y ≤ lo → p = 0) ∧ (hi ≤ y → p = s) := by
  have hsq : (0 : ℚ) ≤ s := by exact_mod_cast hs
  have hd : 0 < hi - lo := by linarith
  have hr := point_range y lo hi s hs p hp
  constructor
  · intro h
    have hm : rnd ((s : ℚ) * (y - lo) / (hi - lo)) ≤ 0 := by
      have := rnd_mono (x := (s : ℚ) * (y - lo) / (hi - lo)) (y := ((0 : ℤ) : ℚ)) (by
        push_cast
        exact div_nonpos_of_nonpos_of_nonneg (mul_nonpos_of_nonneg_of_nonpos hsq (by linarith)) hd.le)
      rwa [rnd_int] at this
    unfold point castInt at hp
    split at hp
    · simp only [Option.map_some, Option.some.injEq] at hp
      subst hp
      split <;> split <;> omega
    · cases hp
  · intro h
    have hm : s ≤ rnd ((s : ℚ) * (y - lo) / (hi - lo)) := by
      have := rnd_mono (x := (s : ℚ)) (y := (s : ℚ) * (y - lo) / (hi - lo)) (by
        rw [le_div_iff₀ hd]
        exact mul_le_mul_of_nonneg_left (by linarith) hsq)
      rwa [rnd_int] at this
    unfold point castInt at hp
    split at hp
    · simp only [Option.map_some, Option.some.injEq] at hp
      subst hp
      split <;> split <;> omega
    · cases hp

example : ∃ p, point 7 (-5) 5 70 = some p := ⟨70, by decide +kernel⟩

/-- **C81 fails far beyond the limits**: the place on the scale is no `int`. -/
theorem point_far (y lo hi : ℚ) (s : ℤ) (h : 2 ^ 31 ≤ (s : ℚ) * (y - lo) / (hi - lo)) : point y lo hi s = none := by
  have : (2 : ℤ) ^ 31 ≤ rnd ((s : ℚ) * (y - lo) / (hi - lo)) := by
    have := rnd_mono (x := (((2 : ℤ) ^ 31 : ℤ) : ℚ)) (by push_cast; exact h)
    rwa [rnd_int] at this
  unfold point castInt
  rw [if_neg (by omega)]
  rfl

/-- 5e8 on a scale from -5 to 5 -/
example : (2 : ℚ) ^ 31 ≤ (70 : ℤ) * (500000000 - -5) / (5 - -5) := by norm_num

/-- **C81, values at marks**: a value that is the number of a mark is drawn at the mark. -/
theorem point_tick (lo hi : ℚ) (hlt : lo < hi) (s : ℤ) (hs : 0 < s) (hs2 : s < 512) (ydiv : ℚ) (m : ℕ) (hm : m < ydiv) :
    ∃ p, point (lo + (hi - lo) * m / ydiv) lo hi s = some p ∧ p ∈ ticksOf s ydiv ∧ p = rnd (s * (m / ydiv)) := by
  have hy : 0 < ydiv := lt_of_le_of_lt (by positivity) hm
  have hd : 0 < hi - lo := by linarith
  have e : (s : ℚ) * (lo + (hi - lo) * m / ydiv - lo) / (hi - lo) = s * (m / ydiv) := by
    field_simp
    ring
  have ht := (ticks_at s ydiv hs hy (rnd (s * (m / ydiv)))).mpr ⟨m, hm, rfl⟩
  have hr := ticks_range s ydiv hs.le hy.le _ ht
  refine ⟨_, ?_, ht, rfl⟩
  unfold point
  rw [e, castInt, if_pos (by constructor <;> omega)]
  simp only [Option.map_some, Option.some.injEq]
  rw [if_neg (by omega), if_neg (by omega)]

example : ((3 : ℕ) : ℚ) < 4 := by norm_num

/-! ## Lines -/

/-- **C81, lines**: the line of a point has the 8 characters of its time or frequency and then the grid, with `*` at the value of the
first probe and `+` at that of the second unless the first is there too; it is shorter than the width. -/
theorem drawn (o : ℕ) (h : 10 ≤ o) (h2 : o < 2 ^ 31) (ydiv : ℚ) (hy : 0 ≤ ydiv) (border empty b e : List Char)
    (hb : border.length = maxWidth + 1) (he : empty.length = maxWidth + 1) (hbe : build (consScale o) ydiv border empty = some (b, e))
    (fmt : Fmt) (xx : ℚ) (xs : List Char) (hx : ftos xx 11 5 fmt = some xs) (y : Prb) (p : ℤ)
    (hp : point y.val (limits y.lo y.hi).1 (limits y.lo y.hi).2 (consScale o) = some p) :
    (∃ a, plottr o fmt e xx [y] = some (cut8 xs ++ a) ∧ (cut8 xs ++ a).length < o ∧
      a = (List.range ((consScale o).toNat + 1)).map fun (j : ℕ) => if (j : ℤ) = p then '*' else gridAt (consScale o) ydiv j) ∧
    ∀ (z : Prb) (q : ℤ) (rest : List Prb), z.val ≠ notValid →
      point z.val (limits z.lo z.hi).1 (limits z.lo z.hi).2 (consScale o) = some q →
      ∃ a, plottr o fmt e xx (y :: z :: rest) = some (cut8 xs ++ a) ∧ (cut8 xs ++ a).length < o ∧
        a = (List.range ((consScale o).toNat + 1)).map fun (j : ℕ) =>
          if (j : ℤ) = p then '*' else if (j : ℤ) = q then '+' else gridAt (consScale o) ydiv j := by
  obtain ⟨b', e', g1, g2, g3, -, -, g4, g5⟩ := grid o h h2 ydiv hy border empty hb he
  rw [hbe] at g1
  cases g1
  obtain ⟨hsv, hs0, hs1⟩ := scale_range o h h2
  have hm : (maxWidth : ℤ) = 512 := rfl
  have hcut : (cut8 xs).length = 8 := by simp [cut8]; omega
  have hgn : ∀ j, gridAt (consScale o) ydiv j ≠ nul := by
    intro j
    unfold gridAt
    split
    · decide
    · split <;> decide
  have hpr := point_range _ _ _ _ hs0 p hp
  constructor
  · obtain ⟨a, a1, a2, a3⟩ := poke_some e p '*' hpr.1 (by rw [g3]; push_cast; omega)
    have hc : cstr a = (List.range ((consScale o).toNat + 1)).map fun (j : ℕ) => if (j : ℤ) = p then '*' else gridAt (consScale o) ydiv j := by
      refine cstr_eq a _ _ (fun j hj => ?_) (fun j _ => ?_) ?_
      · rw [a3 j (by omega), g4 j hj]
        split <;> rfl
      · split
        · decide
        · exact hgn j
      · rw [a3 _ (by omega), if_neg (by omega), g5]
    refine ⟨_, ?_, ?_, rfl⟩
    · simp only [plottr, plotarg, Option.bind_some, hp, a1, hx, Option.map_some, hc]
    · rw [List.length_append, hcut]; simp; omega
  · intro z q rest hz hq
    have hqr := point_range _ _ _ _ hs0 q hq
    obtain ⟨a0, z1, z2, z3⟩ := poke_some e q '+' hqr.1 (by rw [g3]; push_cast; omega)
    obtain ⟨a, a1, a2, a3⟩ := poke_some a0 p '*' hpr.1 (by rw [z2, g3]; push_cast; omega)
    have hc : cstr a = (List.range ((consScale o).toNat + 1)).map fun (j : ℕ) =>
        if (j : ℤ) = p then '*' else if (j : ℤ) = q then '+' else gridAt (consScale o) ydiv j := by
      refine cstr_eq a _ _ (fun j hj => ?_) (fun j _ => ?_) ?_
      · rw [a3 j (by omega), z3 j (by omega), g4 j hj]
        split
        · rfl
        · split <;> rfl
      · split
        · decide
        · split
          · decide
          · exact hgn j
      · rw [a3 _ (by omega), if_neg (by omega), z3 _ (by omega), if_neg (by omega), g5]
    refine ⟨_, ?_, ?_, rfl⟩
    · simp only [plottr, plotarg, if_neg hz, Option.bind_some, hq, z1, hp, a1, hx, Option.map_some, hc]
    · rw [List.length_append, hcut]; simp; omega

/-- a value of 2 on a scale from -5 to 5 with 70 columns, at 1 ms -/
example : point 2 (limits 0 0).1 (limits 0 0).2 (consScale 80) = some 49 ∧ (ftos (1 / 1000) 11 5 ⟨false, false, false⟩).isSome = true := by
  decide +kernel

/-- **C81, reading a value off**: for a value within the limits the `*` stands in a column whose place on the scale is within half a
column of the value. -/
theorem read_off (o : ℕ) (h : 11 ≤ o) (h2 : o < 2 ^ 31) (ydiv : ℚ) (hy : 0 ≤ ydiv) (border empty b e : List Char)
    (hb : border.length = maxWidth + 1) (he : empty.length = maxWidth + 1) (hbe : build (consScale o) ydiv border empty = some (b, e))
    (fmt : Fmt) (xx : ℚ) (xs : List Char) (hx : ftos xx 11 5 fmt = some xs) (y : Prb) (hlt : y.lo < y.hi) (h3 : y.lo ≤ y.val) (h4 : y.val ≤ y.hi) :
    ∃ (t : List Char) (p : ℕ), plottr o fmt e xx [y] = some t ∧ t[8 + p]? = some '*' ∧ (∀ j, t[8 + j]? = some '*' → j = p) ∧
      |y.lo + p * ((y.hi - y.lo) / consScale o) - y.val| ≤ 1 / 2 * ((y.hi - y.lo) / consScale o) := by
  obtain ⟨hsv, hs0, hs1⟩ := scale_range o (by omega) h2
  have hm : (maxWidth : ℤ) = 512 := rfl
  have hpos : 0 < consScale o := by omega
  obtain ⟨p, hp, hn⟩ := point_near y.val y.lo y.hi hlt (consScale o) hs0 (by omega) h3 h4
  have hd : 0 < y.hi - y.lo := by linarith
  have hl : limits y.lo y.hi = (y.lo, y.hi) := by rw [limits, if_pos (by linarith)]
  obtain ⟨⟨a, d1, d2, d3⟩, -⟩ := drawn o (by omega) h2 ydiv hy border empty b e hb he hbe fmt xx xs hx y p (by rw [hl]; exact hp)
  have hpr := point_range _ _ _ _ hs0 p hp
  have hcut : (cut8 xs).length = 8 := by simp [cut8]; omega
  have hget : ∀ j, (cut8 xs ++ a)[8 + j]? = a[j]? := by
    intro j
    rw [List.getElem?_append_right (by omega), hcut]
    congr 1
    omega
  have hstar : ∀ j, gridAt (consScale o) ydiv j ≠ '*' := by
    intro j
    unfold gridAt
    split
    · decide
    · split <;> decide
  refine ⟨_, p.toNat, d1, ?_, ?_, ?_⟩
  · rw [hget, d3, List.getElem?_map, List.getElem?_range (by omega)]
    simp [Int.toNat_of_nonneg hpr.1]
  · intro j hj
    rw [hget, d3, List.getElem?_map] at hj
    rcases hr : (List.range ((consScale o).toNat + 1))[j]? with _ | k
    · rw [hr] at hj; cases hj
    · rw [hr] at hj
      have hk : k = j := by
        rw [List.getElem?_range (by
          have := (List.getElem?_eq_some_iff.mp hr).1
          simpa using this)] at hr
        simpa using hr.symm
      subst hk
      simp only [Option.map_some, Option.some.injEq] at hj
      split at hj
      · omega
      · exact absurd hj (hstar k)
  · have hsq : (0 : ℚ) < consScale o := by exact_mod_cast hpos
    have hpq : ((p.toNat : ℕ) : ℚ) = (p : ℚ) := by
      rw [← Int.cast_natCast, Int.toNat_of_nonneg hpr.1]
    rw [hpq]
    have e1 : y.lo + p * ((y.hi - y.lo) / consScale o) - y.val = ((p : ℚ) - consScale o * (y.val - y.lo) / (y.hi - y.lo)) * ((y.hi - y.lo) / consScale o) := by
      field_simp
      ring
    rw [e1, abs_mul, abs_of_pos (div_pos hd hsq)]
    exact mul_le_mul_of_nonneg_right hn (div_pos hd hsq).le

/-- **C81, values that are not there**: the second probe without a value is not drawn. -/
theorem not_drawn (o : ℕ) (fmt : Fmt) (e : List Char) (xx : ℚ) (y z : Prb) (rest : List Prb) (hz : z.val = notValid) :
    plottr o fmt e xx (y :: z :: rest) = plottr o fmt e xx [y] := by
  simp only [plottr, if_pos hz]

example : (⟨notValid, 0, 5⟩ : Prb).val = notValid := rfl

/-- **C81 fails for a third probe**: it is not drawn, although its scale is. -/
theorem third_lost (o : ℕ) (fmt : Fmt) (e : List Char) (xx : ℚ) (y z : Prb) (rest : List Prb) :
    plottr o fmt e xx (y :: z :: rest) = plottr o fmt e xx [y, z] := rfl

/-- **C81 fails for long numbers**: 12.345 MHz becomes `12.345M`, read as thousandths, and 1.2345e-6 with exponents loses its exponent. -/
theorem cut_wrong :
    (ftos 12345000 11 5 ⟨false, false, false⟩).map cut8 = some [' ', '1', '2', '.', '3', '4', '5', 'M'] ∧
    ctof .spice [' ', '1', '2', '.', '3', '4', '5', 'M', '|'] = .num (12345 / 1000000) ['|'] ∧
    (ftos (12345 / 10000000000) 11 5 ⟨true, false, false⟩).map cut8 = some [' ', '1', '.', '2', '3', '4', '5', 'E'] ∧
    ctof .si [' ', '1', '.', '2', '3', '4', '5', 'E', '|'] = .num (12345 / 10000) ['|'] := by
  refine ⟨?_, ?_, ?_, ?_⟩ <;> decide +kernel

/-! ## The numbers on the scale -/

/-- **C81, numbers apart**: the numbers on a scale never touch each other or the last one. -/
theorem labels_apart (s : ℤ) (ydiv : ℚ) (stop : ℤ) (ts : List (ℕ × List Char)) : ∀ filled,
    (∀ x ∈ placed s ydiv stop filled ts, filled < x.1 ∧ x.1 + x.2.length < stop) ∧
    (placed s ydiv stop filled ts).Pairwise fun (a b : ℤ × List Char) => a.1 + (a.2.length : ℤ) < b.1 := by
  induction ts with
  | nil => intro filled; simp [placed]
  | cons a ts ih =>
    obtain ⟨m, t⟩ := a
    intro filled
    rw [placed]
    split
    · rename_i h
      obtain ⟨i1, i2⟩ := ih (startOf s ydiv m t + t.length)
      constructor
      · intro x hx
        rcases List.mem_cons.mp hx with rfl | hx
        · exact h
        · have := i1 x hx
          exact ⟨by have := h.1; omega, this.2⟩
      · rw [List.pairwise_cons]
        exact ⟨fun x hx => (i1 x hx).1, i2⟩
    · exact ih filled

theorem labels_from (s : ℤ) (ydiv : ℚ) (stop : ℤ) (ts : List (ℕ × List Char)) : ∀ filled, ∀ x ∈ placed s ydiv stop filled ts,
    ∃ m, (m, x.2) ∈ ts ∧ x.1 = startOf s ydiv m x.2 := by
  induction ts with
  | nil => intro filled x hx; simp [placed] at hx
  | cons a ts ih =>
    obtain ⟨m, t⟩ := a
    intro filled x hx
    rw [placed] at hx
    split at hx
    · rcases List.mem_cons.mp hx with rfl | hx
      · exact ⟨m, by simp, rfl⟩
      · obtain ⟨k, h1, h2⟩ := ih _ x hx
        exact ⟨k, by simp [h1], h2⟩
    · obtain ⟨k, h1, h2⟩ := ih _ x hx
      exact ⟨k, by simp [h1], h2⟩

/-- **C81, numbers at their marks**: every number on the scale stands with its middle over a mark, and it is the value of the scale at
that mark (0 if it is nearly 0), cut to 8 characters; the last one is the upper limit, at the end of the line. -/
theorem labels_centred (o : ℕ) (h : 10 ≤ o) (h2 : o < 2 ^ 31) (fmt : Fmt) (ydiv lo hi : ℚ) (l : List (ℤ × List Char))
    (hc : calibrate o fmt ydiv lo hi = some l) :
    ∃ (l' : List (ℤ × List Char)) (highs : List Char), l = l' ++ [((min o 512 : ℕ) - (highs.length : ℤ) - 1, highs)] ∧ numText fmt (limits lo hi).2 = some highs ∧
      (∀ x ∈ l', ∃ (m : ℕ) (v : ℚ), m < ydiv ∧ numText fmt v = some x.2 ∧
        (let mark := (limits lo hi).1 + m * (((limits lo hi).2 - (limits lo hi).1) / ydiv)
          if |mark| < |(limits lo hi).2 - (limits lo hi).1| / (10 * consScale o) then v = 0 else v = mark) ∧
        x.1 + ((x.2.length + 1) / 2 : ℕ) = 8 + rnd (consScale o * (m / ydiv))) ∧
      (∀ x ∈ l, 0 ≤ x.1 ∧ x.1 + x.2.length < (min o 512 : ℕ)) ∧ l.Pairwise fun (a b : ℤ × List Char) => a.1 + (a.2.length : ℤ) < b.1 := by
  unfold calibrate at hc
  simp only at hc
  obtain ⟨highs, e1, hc⟩ := Option.bind_eq_some_iff.mp hc
  obtain ⟨ts, e2, hc⟩ := Option.map_eq_some_iff.mp hc
  have hw : outWidth o = (min o 512 : ℕ) := by
    unfold outWidth asInt maxWidth
    rw [if_pos h2]
    push_cast
    rfl
  have hlen : highs.length ≤ 8 := by
    unfold numText at e1
    obtain ⟨t, -, rfl⟩ := Option.map_eq_some_iff.mp e1
    simp
  rw [hw] at hc
  obtain ⟨a1, a2⟩ := labels_apart (consScale o) ydiv ((min o 512 : ℕ) - (highs.length : ℤ) - 1) ts 0
  refine ⟨_, highs, hc.symm, e1, ?_, ?_, ?_⟩
  · intro x hx
    obtain ⟨m, m1, m2⟩ := labels_from _ _ _ _ _ x hx
    have key : ∀ (ms : List ℕ) (ts : List (ℕ × List Char)), (ms.mapM fun m => (numText fmt (markNo (consScale o) ydiv (limits lo hi).1 (limits lo hi).2 m)).map fun t => (m, t)) = some ts →
        ∀ y ∈ ts, y.1 ∈ ms ∧ numText fmt (markNo (consScale o) ydiv (limits lo hi).1 (limits lo hi).2 y.1) = some y.2 := by
      intro ms
      induction ms with
      | nil => intro ts h y hy; simp at h; subst h; cases hy
      | cons k ms ih =>
        intro ts h y hy
        rw [List.mapM_cons] at h
        rcases h1 : numText fmt (markNo (consScale o) ydiv (limits lo hi).1 (limits lo hi).2 k) with _ | t
        · rw [h1] at h; cases h
        · rw [h1] at h
          rcases h3 : (ms.mapM fun m => (numText fmt (markNo (consScale o) ydiv (limits lo hi).1 (limits lo hi).2 m)).map fun t => (m, t)) with _ | us
          · rw [h3] at h; cases h
          · rw [h3] at h
            cases h
            rcases List.mem_cons.mp hy with rfl | hy
            · exact ⟨by simp, h1⟩
            · obtain ⟨i1, i2⟩ := ih us h3 y hy
              exact ⟨by simp [i1], i2⟩
    obtain ⟨k1, k2⟩ := key _ ts e2 _ m1
    refine ⟨m, _, Nat.lt_ceil.mp (List.mem_range.mp k1), k2, ?_, ?_⟩
    · have hm : ∀ a b : ℚ, a + (b - a) * m / ydiv = a + m * ((b - a) / ydiv) := fun a b => by ring
      simp only [markNo, hm]
      split
      · rfl
      · rfl
    rw [m2]
    unfold startOf indent
    have := rnd_add 8 (consScale o * (m / ydiv))
    push_cast at this ⊢
    rw [this]
    ring
  · intro x hx
    rw [← hc] at hx
    rcases List.mem_append.mp hx with hx | hx
    · have := a1 x hx
      omega
    · rw [List.mem_singleton.mp hx]
      simp only
      omega
  · rw [← hc, List.pairwise_append]
    refine ⟨a2, by simp, ?_⟩
    intro x hx y hy
    rw [List.mem_singleton.mp hy]
    exact (a1 x hx).2

example : (calibrate 80 ⟨false, false, false⟩ 4 0 0).isSome = true := by decide +kernel

theorem run_append (width : ℕ) (w : W) (a b : List (Om × Op)) : run width w (a ++ b) = run width (run width w a) b := by
  simp [run]

/-- texts at their columns -/
theorem laid_at (width : ℕ) (om : Om) (hp : om.pack = false) (i : ℕ) (hm : om.mask i = true) (l : List (ℤ × List Char)) : ∀ (c : ℕ) (w : W),
    (∀ x ∈ l, 0 ≤ x.1 ∧ x.1 < 2 ^ 64 ∧ x.1 + x.2.length < width ∧ room x.2 = 0 ∧ ∀ c ∈ x.2, Ink c ∧ c ≠ '\n') →
    (l.Pairwise fun (a b : ℤ × List Char) => a.1 + (a.2.length : ℤ) < b.1) → (∀ x ∈ l, (c : ℤ) ≤ x.1) → (∀ i, Even (w.h i)) → column (w.h i).text = c →
    ∃ u, ((run width w (l.flatMap fun x => [(om, .tab (x.1 % 2 ^ 64).toNat), (om, .str x.2)])).h i).text = (w.h i).text ++ u ∧ '\n' ∉ u ∧
      ∀ x ∈ l, ∃ u1 u2, u = u1 ++ x.2 ++ u2 ∧ (c : ℤ) + u1.length = x.1 := by
  induction l with
  | nil => intro c w _ _ _ _ _; exact ⟨[], by simp [run], by simp, by simp⟩
  | cons x l ih =>
    intro c w hl hpw hc hw hcol
    obtain ⟨h1, h2, h3, h4, h5⟩ := hl x (by simp)
    have hcx := hc x (by simp)
    obtain ⟨n, hn⟩ : ∃ n : ℕ, x.1 = n := ⟨x.1.toNat, by omega⟩
    have hmod : (x.1 % 2 ^ 64).toNat = n := by omega
    have hink : ∀ c ∈ x.2, Ink c := fun c hc => (h5 c hc).1
    have hnl : '\n' ∉ x.2 := fun h => (h5 _ h).2 rfl
    have hsh : shown x.2 = x.2 := by
      unfold shown
      split
      · rename_i h
        unfold room at h4
        rw [if_pos h] at h4
        omega
      · rfl
    -- the tabulator
    have hw1 : ∀ i, Even ((tab n om w).h i) := fun j => column_kept width [(om, .tab n)] (by simpa [Proper] using hp) w hw j
    obtain ⟨t1, t2⟩ := (tab_reaches n om w i (hw i)).2 hm
    rw [if_pos (by omega)] at t2
    -- the text
    have hw2 : ∀ i, Even ((puts width om x.2 (tab n om w)).h i) := fun j =>
      column_kept width [(om, .str x.2)] (by simpa [Proper] using ⟨hp, hink⟩) _ hw1 j
    have p1 := fits_unbroken width om x.2 (tab n om w) i hp hink (hw1 i) hm (by rw [t1, h4]; omega)
    rw [hsh] at p1
    have hcol2 : column ((puts width om x.2 (tab n om w)).h i).text = n + x.2.length := by
      rw [p1, column_text _ _ hnl, t1]
    rw [List.pairwise_cons] at hpw
    obtain ⟨u, u1, u2, u3⟩ := ih (n + x.2.length) (puts width om x.2 (tab n om w)) (fun y hy => hl y (by simp [hy])) hpw.2
      (fun y hy => by have := hpw.1 y hy; push_cast; omega) hw2 hcol2
    refine ⟨List.replicate (n - c) ' ' ++ x.2 ++ u, ?_, ?_, ?_⟩
    · have hrun : run width w ((x :: l).flatMap fun x => [(om, .tab (x.1 % 2 ^ 64).toNat), (om, .str x.2)]) =
          run width (puts width om x.2 (tab n om w)) (l.flatMap fun x => [(om, .tab (x.1 % 2 ^ 64).toNat), (om, .str x.2)]) := by
        rw [List.flatMap_cons, run_append, hmod]
        rfl
      rw [hrun, u1, p1, t2, hcol]
      simp
    · intro h
      rcases List.mem_append.mp h with h | h
      · rcases List.mem_append.mp h with h | h
        · have := List.eq_of_mem_replicate h
          revert this; decide
        · exact hnl h
      · exact u2 h
    · intro y hy
      rcases List.mem_cons.mp hy with rfl | hy
      · exact ⟨List.replicate (n - c) ' ', u, rfl, by simp; omega⟩
      · obtain ⟨v1, v2, v3, v4⟩ := u3 y hy
        refine ⟨List.replicate (n - c) ' ' ++ x.2 ++ v1, v2, by rw [v3]; simp, ?_⟩
        simp only [List.length_append, List.length_replicate]
        push_cast at v4 ⊢
        omega

theorem numText_ok (fmt : Fmt) (v : ℚ) (t : List Char) (h : numText fmt v = some t) : room t = 0 ∧ ∀ c ∈ t, Ink c ∧ c ≠ '\n' := by
  unfold numText at h
  obtain ⟨s, e, rfl⟩ := Option.map_eq_some_iff.mp h
  have hv : ∀ c ∈ s.take 8, (isGraph c = true ∧ c ∉ ['\\', '@', '=', '(']) ∨ c = ' ' := fun c hc =>
    ftos_visible v 0 5 fmt s e c (List.mem_of_mem_take hc)
  constructor
  · have hne : ∀ c ∈ ['@', '=', '('], (s.take 8).getLast? ≠ some c := by
      intro c hc h
      have := hv c (List.mem_of_getLast? h)
      simp only [List.mem_cons, List.not_mem_nil, or_false] at hc
      rcases hc with rfl | rfl | rfl <;> (rcases this with ⟨-, h⟩ | h <;> revert h <;> decide)
    unfold room
    rw [if_neg (hne _ (by simp)), if_neg (hne _ (by simp)), if_neg (hne _ (by simp))]
  · intro c hc
    rcases hv c hc with ⟨h, -⟩ | rfl
    · refine ⟨⟨?_, ?_, ?_⟩, ?_⟩ <;> (rintro rfl; revert h; decide)
    · exact ⟨⟨by decide, by decide, by decide⟩, by decide⟩

/-- **C81, the line of a scale**: if the label is not longer than where the first number begins, the label and all the numbers are on one
line, each number in its column. -/
theorem scale_line (o : ℕ) (h : 10 ≤ o) (h2 : o < 2 ^ 31) (fmt : Fmt) (ydiv lo hi : ℚ) (l : List (ℤ × List Char))
    (hc : calibrate o fmt ydiv lo hi = some l) (om : Om) (hp : om.pack = false) (i : ℕ) (hm : om.mask i = true) (w : W) (hw : ∀ i, Even (w.h i))
    (h0 : column (w.h i).text = 0) (label : List Char) (hink : ∀ c ∈ label, Ink c ∧ c ≠ '\n') (hat : label.getLast? ≠ some '@')
    (hl : ∀ x ∈ l, (label.length : ℤ) ≤ x.1) :
    ∃ t, ((run o w (calOps om label l)).h i).text = (w.h i).text ++ t ++ ['\n'] ∧ '\n' ∉ t ∧ label <+: t ∧
      ∀ x ∈ l, ∃ u1 u2, t = u1 ++ x.2 ++ u2 ∧ (u1.length : ℤ) = x.1 := by
  obtain ⟨l', highs, e1, e2, e3, e4, e5⟩ := labels_centred o h h2 fmt ydiv lo hi l hc
  have hi1 : ∀ c ∈ label, Ink c := fun c hc => (hink c hc).1
  have hnl : '\n' ∉ label := fun h => (hink _ h).2 rfl
  have hsh : shown label = label := by rw [shown, if_neg hat]
  have hw1 : ∀ i, Even ((puts o om label w).h i) := fun j =>
    column_kept o [(om, .str label)] (by simpa [Proper] using ⟨hp, hi1⟩) w hw j
  have p1 : ((puts o om label w).h i).text = (w.h i).text ++ label := by
    rw [puts_at o om label w i hi1 hp, hm, if_pos rfl, textH_text, hsh]
    have : breaks o label (w.h i) = false := by
      have hz : (w.h i).cpos = 0 := by rw [hw i]; exact h0
      simp [breaks, hz]
    rw [this]
    simp
  have hcol : column ((puts o om label w).h i).text = label.length := by rw [p1, column_text _ _ hnl, h0, Nat.zero_add]
  have hok : ∀ x ∈ l, ∃ v, numText fmt v = some x.2 := by
    intro x hx
    rw [e1] at hx
    rcases List.mem_append.mp hx with hx | hx
    · obtain ⟨m, v, -, h, -⟩ := e3 x hx
      exact ⟨_, h⟩
    · rw [List.mem_singleton.mp hx]
      exact ⟨_, e2⟩
  obtain ⟨u, u1, u2, u3⟩ := laid_at o om hp i hm l label.length (puts o om label w) (by
    intro x hx
    obtain ⟨v, hv⟩ := hok x hx
    obtain ⟨r1, r2⟩ := numText_ok fmt v x.2 hv
    have := e4 x hx
    exact ⟨this.1, by omega, by omega, r1, r2⟩) e5 hl hw1 hcol
  refine ⟨label ++ u, ?_, ?_, ⟨u, rfl⟩, ?_⟩
  · unfold calOps
    have hrun : ∀ k, run o w ((om, Op.str label) :: k) = run o (puts o om label w) k := fun k => rfl
    rw [List.cons_append, hrun, run_append]
    have hnlp : ∀ w' : W, ((run o w' [(om, .chr '\n')]).h i).text = (w'.h i).text ++ ['\n'] := by
      intro w'; simp [run, step, putc, putH, hm, hp]
    rw [hnlp, u1, p1]
    simp
  · intro h
    rcases List.mem_append.mp h with h | h
    · exact hnl h
    · exact u2 h
  · intro x hx
    obtain ⟨v1, v2, v3, v4⟩ := u3 x hx
    exact ⟨label ++ v1, v2, by rw [v3]; simp, by simp only [List.length_append]; push_cast; omega⟩

/-- `v(1)` from -5 to 5: the first number begins in column 6 -/
example : (calibrate 80 ⟨false, false, false⟩ 4 0 0).map (fun l => decide (∀ x ∈ l, ((['v', '(', '1', ')'] : List Char).length : ℤ) ≤ x.1)) = some true := by
  decide +kernel

/-- **C81 fails for long labels**: the first number comes on a new line if the label is longer than where it begins. -/
theorem scale_broken (o n : ℕ) (om : Om) (hp : om.pack = false) (i : ℕ) (hm : om.mask i = true) (w : W) (hw : ∀ i, Even (w.h i))
    (h0 : column (w.h i).text = 0) (label : List Char) (hink : ∀ c ∈ label, Ink c ∧ c ≠ '\n') (hat : label.getLast? ≠ some '@')
    (hl : n < label.length) :
    ((tab n om (puts o om label w)).h i).text = (w.h i).text ++ label ++ '\n' :: List.replicate n ' ' := by
  have hi1 : ∀ c ∈ label, Ink c := fun c hc => (hink c hc).1
  have hnl : '\n' ∉ label := fun h => (hink _ h).2 rfl
  have hsh : shown label = label := by rw [shown, if_neg hat]
  have hw1 : ∀ i, Even ((puts o om label w).h i) := fun j =>
    column_kept o [(om, .str label)] (by simpa [Proper] using ⟨hp, hi1⟩) w hw j
  have p1 : ((puts o om label w).h i).text = (w.h i).text ++ label := by
    rw [puts_at o om label w i hi1 hp, hm, if_pos rfl, textH_text, hsh]
    have : breaks o label (w.h i) = false := by
      have hz : (w.h i).cpos = 0 := by rw [hw i]; exact h0
      simp [breaks, hz]
    rw [this]
    simp
  obtain ⟨-, t2⟩ := (tab_reaches n om (puts o om label w) i (hw1 i)).2 hm
  rw [t2, p1, column_text _ _ hnl, h0, if_neg (by omega)]

/-- `v(node1)` and a number that begins in column 6 -/
example : 6 < (['v', '(', 'n', 'o', 'd', 'e', '1', ')'] : List Char).length := by decide

end Gnucap.Plot
