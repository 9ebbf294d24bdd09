import Verif.SplineModel
import Mathlib.Analysis.Calculus.Deriv.Basic
import Mathlib.Analysis.Calculus.Deriv.Add
import Mathlib.Analysis.Calculus.Deriv.Mul
import Mathlib.Analysis.Calculus.Deriv.Pow
import Mathlib.Topology.Order.OrderClosed
import Mathlib.Tactic.Linarith
import Mathlib.Tactic.Ring
import Mathlib.Tactic.FieldSimp
import Mathlib.Tactic.NormNum
import Mathlib.Tactic.Positivity
import Mathlib.Tactic.LinearCombination

/-!
# Splines interpolate and are smooth (C31)
-/
set_option linter.unusedSectionVars false
namespace Gnucap.Spline
open Gnucap.Integ (FPoly)
open Gnucap.Interp (Out)

section field
variable {F : Type _} [Field F] [LinearOrder F] [IsStrictOrderedRing F]

/-- strictly increasing, at least two points -/
structure Table.Ok (t : Table F) : Prop where
  two : 1 ≤ t.n
  inc : ∀ i, i < t.n → t.x i < t.x (i + 1)

theorem Table.Ok.mono {t : Table F} (h : t.Ok) {i j : ℕ} (hij : i < j) (hj : j ≤ t.n) : t.x i < t.x j := by
  induction j with
  | zero => omega
  | succ j ih =>
    rcases Nat.lt_succ_iff_lt_or_eq.mp hij with hlt | rfl
    · exact (ih hlt (by omega)).trans (h.inc j (by omega))
    · exact h.inc i (by omega)

theorem Table.Ok.h_pos {t : Table F} (h : t.Ok) {i : ℕ} (hi : i < t.n) : 0 < t.h i := by
  have := h.inc i hi
  unfold Table.h; linarith

/-! ### finding the place -/

theorem upper_spec (x : ℕ → F) (y : F) (r i : ℕ) :
    i ≤ upper x y r i ∧ upper x y r i ≤ i + r ∧ (∀ k, i ≤ k → k < upper x y r i → x k ≤ y) ∧
    (upper x y r i < i + r → y < x (upper x y r i)) := by
  induction r generalizing i with
  | zero => simp [upper]; intro k h1 h2; omega
  | succ r ih =>
    obtain ⟨h1, h2, h3, h4⟩ := ih (i + 1)
    unfold upper
    split
    · rename_i hx
      refine ⟨by omega, by omega, ?_, fun h => h4 (by omega)⟩
      intro k hk1 hk2
      rcases Nat.eq_or_lt_of_le hk1 with rfl | hlt
      · exact hx
      · exact h3 k hlt hk2
    · rename_i hx
      refine ⟨le_rfl, by omega, fun k h5 h6 => by omega, fun _ => not_le.mp hx⟩

/-- number of knots not above `y` -/
def Table.place (t : Table F) (y : F) : ℕ := upper t.x y (t.n + 1) 0

theorem Table.Ok.place_eq {t : Table F} (h : t.Ok) (y : F) (m : ℕ) (hm : m ≤ t.n + 1) (h1 : m ≠ 0 → t.x (m - 1) ≤ y)
    (h2 : m ≤ t.n → y < t.x m) : t.place y = m := by
  obtain ⟨-, g2, g3, g4⟩ := upper_spec t.x y (t.n + 1) 0
  unfold Table.place
  generalize upper t.x y (t.n + 1) 0 = k at *
  rcases lt_trichotomy k m with hlt | rfl | hgt
  · have a := g4 (by omega)
    have b := h1 (by omega)
    have : t.x k ≤ t.x (m - 1) := by
      rcases Nat.eq_or_lt_of_le (show k ≤ m - 1 by omega) with e | l
      · rw [e]
      · exact (h.mono l (by omega)).le
    linarith
  · rfl
  · have a := g3 m (by omega) hgt
    have b := h2 (by omega)
    linarith

theorem Table.place_spec (t : Table F) (y : F) :
    t.place y ≤ t.n + 1 ∧ (∀ k, k < t.place y → t.x k ≤ y) ∧ (t.place y ≤ t.n → y < t.x (t.place y)) := by
  obtain ⟨-, g2, g3, g4⟩ := upper_spec t.x y (t.n + 1) 0
  unfold Table.place
  exact ⟨by omega, fun k hk => g3 k (by omega) hk, fun hk => g4 (by omega)⟩

/-! ### the pieces -/

/-- piece 0 is below the first knot, piece `i + 1` begins at knot `i` -/
def Spl.piece (s : Spl F) : ℕ → F → F
  | 0, y => s.t.f 0 + (y - s.t.x 0) * s.d0
  | i + 1, y => s.t.f i + (y - s.t.x i) * (s.f1 i + (y - s.t.x i) * (s.f2 i + (y - s.t.x i) * s.f3 i))

def Spl.dpiece (s : Spl F) : ℕ → F → F
  | 0, _ => s.d0
  | i + 1, y => s.f1 i + (y - s.t.x i) * (2 * s.f2 i + 3 * (y - s.t.x i) * s.f3 i)

def Spl.ddpiece (s : Spl F) : ℕ → F → F
  | 0, _ => 0
  | i + 1, y => 2 * s.f2 i + 6 * (y - s.t.x i) * s.f3 i

/-- unused coefficients are 0 -/
def Spl.Shape (s : Spl F) : Prop :=
  (s.order = 1 ∧ (∀ i, s.f2 i = 0) ∧ (∀ i, s.f3 i = 0)) ∨ (s.order = 2 ∧ ∀ i, s.f3 i = 0) ∨ s.order = 3

theorem at_eq (s : Spl F) (hs : s.Shape) (y : F) : s.at y = ⟨y, s.piece (s.t.place y) y, s.dpiece (s.t.place y) y⟩ := by
  unfold Spl.at Table.place
  simp only
  generalize upper s.t.x y (s.t.n + 1) 0 = k
  rcases k with _ | i
  · have : s.order ≠ 0 := by rcases hs with h | h | h <;> omega
    simp [this, Spl.piece, Spl.dpiece]
  · rcases hs with ⟨h1, h2, h3⟩ | ⟨h1, h3⟩ | h1
    · rw [h1]; simp [Spl.piece, Spl.dpiece, h2, h3]
    · rw [h1]; simp [Spl.piece, Spl.dpiece, h3]
    · rw [h1]; simp [Spl.piece, Spl.dpiece]

/-- values match at every knot above the first when each piece ends at the next table value -/
def Spl.Joins (s : Spl F) : Prop := ∀ i, i < s.t.n → s.piece (i + 1) (s.t.x (i + 1)) = s.t.f (i + 1)

theorem join_value (s : Spl F) (hj : s.Joins) (k : ℕ) (hk : k ≤ s.t.n) : s.piece k (s.t.x k) = s.piece (k + 1) (s.t.x k) := by
  have e : s.piece (k + 1) (s.t.x k) = s.t.f k := by simp [Spl.piece]
  rw [e]
  rcases k with _ | i
  · simp [Spl.piece]
  · exact hj i (by omega)

/-- **C31, interpolation**: the spline passes through every table point -/
theorem at_knot (s : Spl F) (hs : s.Shape) (hok : s.t.Ok) (k : ℕ) (hk : k ≤ s.t.n) : (s.at (s.t.x k)).f0 = s.t.f k := by
  rw [at_eq s hs]
  have : s.t.place (s.t.x k) = k + 1 := by
    apply hok.place_eq
    · omega
    · intro _; exact le_rfl
    · intro h; exact hok.mono (by omega) h
  rw [this]
  simp [Spl.piece]

/-! ### order 1 -/

theorem shape1 (nv : F) (t : Table F) (d0 dn : Option F) : (construct1 nv t d0 dn).Shape := Or.inl ⟨rfl, fun _ => rfl, fun _ => rfl⟩

theorem joins1 (nv : F) (t : Table F) (h : t.Ok) (d0 dn : Option F) : (construct1 nv t d0 dn).Joins := by
  intro i hi
  have hi : i < t.n := hi
  have hp := h.h_pos hi
  have e : (construct1 nv t d0 dn).f1 i = t.slope i := by
    simp only [construct1]; rw [if_neg (by omega)]
  simp only [Spl.piece]
  rw [e]
  simp only [construct1, Table.slope]
  unfold Table.h at *
  field_simp
  ring

/-! ### order 2 -/

theorem shape2 (t : Table F) (d0 dn : Option F) : (construct2 t d0 dn).Shape := Or.inr (Or.inl ⟨rfl, fun _ => rfl⟩)

/-- the recurrence both loops implement -/
theorem rec2 (t : Table F) (d0 dn : Option F) (i : ℕ) (hi : i < t.n) :
    f1of2 t d0 dn (i + 1) + f1of2 t d0 dn i = 2 * (t.f (i + 1) - t.f i) / t.h i := by
  have down : ∀ last, down2 t last (t.n - (i + 1)) + down2 t last (t.n - i) = 2 * (t.f (i + 1) - t.f i) / t.h i := by
    intro last
    have : t.n - i = (t.n - (i + 1)) + 1 := by omega
    rw [this, down2]
    have e : t.n - (t.n - (i + 1) + 1) = i := by omega
    simp only [e]
    ring
  unfold f1of2
  split
  · simp only [up2]; ring
  · exact down _
  · exact down _

theorem joins2 (t : Table F) (h : t.Ok) (d0 dn : Option F) : (construct2 t d0 dn).Joins := by
  intro i hi
  have hi : i < t.n := hi
  have hp := h.h_pos hi
  have hr := rec2 t d0 dn i hi
  have e : (construct2 t d0 dn).f2 i = 1 / 2 * (f1of2 t d0 dn (i + 1) - f1of2 t d0 dn i) / t.h i := by
    simp only [construct2]; rw [if_neg (by omega)]
  simp only [Spl.piece]
  rw [e]
  simp only [construct2, mul_zero, add_zero]
  have hx : t.x (i + 1) - t.x i = t.h i := rfl
  rw [hx]
  field_simp at hr ⊢
  linear_combination hr

/-- slopes match at every knot but the first -/
theorem djoins2 (t : Table F) (h : t.Ok) (d0 dn : Option F) (i : ℕ) (hi : i < t.n) :
    (construct2 t d0 dn).dpiece (i + 1) (t.x (i + 1)) = (construct2 t d0 dn).f1 (i + 1) := by
  have hp := h.h_pos hi
  have e : (construct2 t d0 dn).f2 i = 1 / 2 * (f1of2 t d0 dn (i + 1) - f1of2 t d0 dn i) / t.h i := by
    simp only [construct2]; rw [if_neg (by omega)]
  simp only [Spl.dpiece]
  rw [e]
  simp only [construct2, mul_zero, add_zero]
  have hx : t.x (i + 1) - t.x i = t.h i := rfl
  rw [hx]
  field_simp
  ring

/-! ### order 3 -/

theorem shape3 (tol nv : F) (t : Table F) (d0 dn : Option F) : (construct3 tol nv t d0 dn).Shape := Or.inr (Or.inr rfl)

theorem u3_range (t : Table F) (h : t.Ok) (d0 : Option F) (i : ℕ) (hi : i < t.n) : 0 ≤ u3 t d0 i ∧ u3 t d0 i ≤ 1 / 2 := by
  induction i with
  | zero =>
    cases d0 <;> simp [u3]
  | succ i ih =>
    obtain ⟨h1, h2⟩ := ih (by omega)
    have p1 := h.h_pos hi
    have p0 := h.h_pos (show i < t.n by omega)
    have hp : 2 * t.h (i + 1) ≤ 2 * (t.h (i + 1) + t.h i) - t.h i * u3 t d0 i := by nlinarith
    have hpos : 0 < 2 * (t.h (i + 1) + t.h i) - t.h i * u3 t d0 i := by linarith
    unfold u3
    constructor
    · exact div_nonneg p1.le hpos.le
    · rw [div_le_iff₀ hpos]; linarith

theorem pivot_pos (t : Table F) (h : t.Ok) (d0 : Option F) (i : ℕ) (hi : i + 1 < t.n) :
    0 < 2 * (t.h (i + 1) + t.h i) - t.h i * u3 t d0 i := by
  obtain ⟨h1, h2⟩ := u3_range t h d0 i (by omega)
  have p1 := h.h_pos hi
  have p0 := h.h_pos (show i < t.n by omega)
  nlinarith

theorem m3_back (t : Table F) (d0 dn : Option F) (i : ℕ) (hi : i < t.n) :
    m3 t d0 dn i = z3 t d0 dn i - u3 t d0 i * m3 t d0 dn (i + 1) := by
  unfold m3
  have : t.n - i = (t.n - (i + 1)) + 1 := by omega
  rw [this, back3]
  have e : t.n - (t.n - (i + 1) + 1) = i := by omega
  simp only [e]

theorem m3_last (t : Table F) (d0 dn : Option F) : m3 t d0 dn t.n = zn3 t d0 dn := by
  simp [m3, back3]

/-- **C31, the elimination solves the system**: the equations of the interior knots -/
theorem m3_inner (t : Table F) (h : t.Ok) (d0 dn : Option F) (i : ℕ) (hi : i + 1 < t.n) :
    t.h i * m3 t d0 dn i + 2 * (t.h (i + 1) + t.h i) * m3 t d0 dn (i + 1) + t.h (i + 1) * m3 t d0 dn (i + 2) = b3 t d0 dn (i + 1) := by
  have hp := pivot_pos t h d0 i hi
  have e0 := m3_back t d0 dn i (by omega)
  have e1 := m3_back t d0 dn (i + 1) hi
  rw [u3, z3] at e1
  have e1' : m3 t d0 dn (i + 1) * (2 * (t.h (i + 1) + t.h i) - t.h i * u3 t d0 i) =
      (b3 t d0 dn (i + 1) - z3 t d0 dn i * t.h i) - t.h (i + 1) * m3 t d0 dn (i + 2) := by
    rw [e1]; field_simp
  linear_combination t.h i * e0 + e1'

/-- … of the last knot -/
theorem m3_end (t : Table F) (h : t.Ok) (d0 dn : Option F) :
    match dn with
    | none => m3 t d0 dn t.n = 0
    | some d => t.h (t.n - 1) * m3 t d0 dn (t.n - 1) + 2 * t.h (t.n - 1) * m3 t d0 dn t.n = 3 * (d - t.slope (t.n - 1)) := by
  have h2 := h.two
  cases dn with
  | none => simp only; rw [m3_last]; rfl
  | some d =>
    obtain ⟨g1, g2⟩ := u3_range t h d0 (t.n - 1) (by omega)
    have hp := h.h_pos (show t.n - 1 < t.n by omega)
    have e := m3_back t d0 (some d) (t.n - 1) (by omega)
    have en : t.n - 1 + 1 = t.n := by omega
    rw [en] at e
    have el := m3_last t d0 (some d)
    rw [zn3] at el
    dsimp only at el ⊢
    have hb : b3 t d0 (some d) t.n = 3 * (d - t.slope (t.n - 1)) := by
      unfold b3
      rw [if_neg (by omega), if_pos rfl]
      simp [Table.slope, en]
    rw [hb] at el
    have hne : t.h (t.n - 1) * (2 - u3 t d0 (t.n - 1)) ≠ 0 := by
      apply ne_of_gt; apply mul_pos hp; linarith
    have el' : m3 t d0 (some d) t.n * (t.h (t.n - 1) * (2 - u3 t d0 (t.n - 1))) =
        3 * (d - t.slope (t.n - 1)) - z3 t d0 (some d) (t.n - 1) * t.h (t.n - 1) := by
      rw [el]; exact div_mul_cancel₀ _ hne
    linear_combination t.h (t.n - 1) * e + el'

/-- … of the first knot -/
theorem m3_begin (t : Table F) (h : t.Ok) (d0 dn : Option F) :
    match d0 with
    | none => m3 t d0 dn 0 = 0
    | some d => s3 t d0 dn 0 = d := by
  have h2 := h.two
  have e := m3_back t d0 dn 0 (by omega)
  cases d0 with
  | none => simp only; rw [e]; simp [u3, z3]
  | some d =>
    simp only
    have hp := h.h_pos (show 0 < t.n by omega)
    simp only [u3, z3] at e
    have hb : b3 t (some d) dn 0 = 3 * ((t.f 1 - t.f 0) / t.h 0 - d) := by simp [b3]
    rw [hb] at e
    unfold s3
    simp only [zero_add] at e ⊢
    rw [e]
    field_simp
    ring

theorem joins3 (tol nv : F) (t : Table F) (h : t.Ok) (d0 dn : Option F) : (construct3 tol nv t d0 dn).Joins := by
  intro i hi
  have hi : i < t.n := hi
  have hp := h.h_pos hi
  have hne : i ≠ t.n := by omega
  unfold Spl.piece
  simp only [construct3, if_neg hne, s3]
  have hx : t.x (i + 1) - t.x i = t.h i := rfl
  rw [hx]
  field_simp
  ring

/-- the slopes match at every knot but the first -/
theorem djoins3 (tol nv : F) (t : Table F) (h : t.Ok) (d0 dn : Option F) (i : ℕ) (hi : i < t.n) :
    (construct3 tol nv t d0 dn).dpiece (i + 1) (t.x (i + 1)) = (construct3 tol nv t d0 dn).f1 (i + 1) := by
  have hp := h.h_pos hi
  have hne : i ≠ t.n := by omega
  have hx : t.x (i + 1) - t.x i = t.h i := rfl
  have left : (construct3 tol nv t d0 dn).dpiece (i + 1) (t.x (i + 1)) =
      (t.f (i + 1) - t.f i) / t.h i + t.h i * (2 * m3 t d0 dn (i + 1) + m3 t d0 dn i) / 3 := by
    unfold Spl.dpiece
    simp only [construct3, if_neg hne, s3]
    rw [hx]
    field_simp
    ring
  rw [left]
  by_cases hl : i + 1 = t.n
  · have hi' : t.n - 1 = i := by omega
    have he := m3_end t h d0 dn
    cases dn with
    | none =>
      simp only [← hl] at he
      simp only [construct3, ← hl, if_true, s3, Nat.add_sub_cancel]
      rw [he, hx]
      field_simp
      ring
    | some d =>
      simp only [hi', Table.slope] at he
      rw [← hl] at he
      simp only [construct3, ← hl, if_true]
      field_simp at he ⊢
      linear_combination he
  · have hi2 : i + 1 < t.n := by omega
    have hp2 := h.h_pos hi2
    have hin := m3_inner t h d0 dn i hi2
    have hb : b3 t d0 dn (i + 1) = 3 * (t.f (i + 2) * t.h i - t.f (i + 1) * (t.h (i + 1) + t.h i) + t.f i * t.h (i + 1)) / (t.h i * t.h (i + 1)) := by
      unfold b3
      rw [if_neg (by omega), if_neg hl]
      simp
    rw [hb] at hin
    simp only [construct3, if_neg hl, s3]
    field_simp at hin ⊢
    linear_combination hin

/-- the second derivatives match at the inner knots -/
theorem ddjoins3 (tol nv : F) (t : Table F) (h : t.Ok) (d0 dn : Option F) (i : ℕ) (hi : i + 1 < t.n) :
    (construct3 tol nv t d0 dn).ddpiece (i + 1) (t.x (i + 1)) = 2 * (construct3 tol nv t d0 dn).f2 (i + 1) := by
  have hp := h.h_pos (show i < t.n by omega)
  have hx : t.x (i + 1) - t.x i = t.h i := rfl
  unfold Spl.ddpiece
  simp only [construct3, if_neg (show i ≠ t.n by omega), if_neg (show i + 1 ≠ t.n by omega)]
  rw [hx]
  field_simp
  ring

/-- natural ends: the second derivative is 0 at both ends -/
theorem ddends3 (tol nv : F) (t : Table F) (h : t.Ok) (d0 dn : Option F) :
    (d0 = none → (construct3 tol nv t d0 dn).ddpiece 1 (t.x 0) = 0) ∧
    (dn = none → (construct3 tol nv t d0 dn).ddpiece t.n (t.x t.n) = 0) := by
  have h2 := h.two
  constructor
  · intro hd
    subst hd
    have := m3_begin t h none dn
    simp only at this
    simp [Spl.ddpiece, construct3, this]
  · intro hd
    subst hd
    have he := m3_end t h d0 none
    simp only at he
    obtain ⟨i, hi⟩ : ∃ i, t.n = i + 1 := ⟨t.n - 1, by omega⟩
    have hp := h.h_pos (show i < t.n by omega)
    have hx : t.x (i + 1) - t.x i = t.h i := rfl
    rw [hi] at he ⊢
    unfold Spl.ddpiece
    simp only [construct3, if_neg (show i ≠ t.n by omega)]
    rw [hx, he]
    field_simp
    ring

end field

/-! ### smoothness, for real tables -/

/-- Pieces that meet in value and slope make a differentiable function. -/
theorem glue {t : Table ℝ} (h : t.Ok) (P D : ℕ → ℝ → ℝ) (hP : ∀ k y, HasDerivAt (P k) (D k y) y) (y : ℝ)
    (hj : ∀ k, k ≤ t.n → y = t.x k → P k y = P (k + 1) y ∧ D k y = D (k + 1) y) :
    HasDerivAt (fun z => P (t.place z) z) (D (t.place y) y) y := by
  obtain ⟨g1, g2, g3⟩ := t.place_spec y
  generalize hm : t.place y = m at *
  -- to the right
  have right : ∀ᶠ z in nhdsWithin y (Set.Ici y), t.place z = m := by
    have : ∀ᶠ z in nhds y, m ≤ t.n → z < t.x m := by
      by_cases hmn : m ≤ t.n
      · filter_upwards [eventually_lt_nhds (g3 hmn)] with z hz _ using hz
      · exact Filter.Eventually.of_forall fun z hz => absurd hz hmn
    filter_upwards [nhdsWithin_le_nhds this, self_mem_nhdsWithin] with z hz hz2
    exact h.place_eq z m g1 (fun h0 => (g2 (m - 1) (by omega)).trans hz2) hz
  by_cases hin : m = 0 ∨ t.x (m - 1) < y
  · have left : ∀ᶠ z in nhds y, t.place z = m := by
      have a : ∀ᶠ z in nhds y, m ≤ t.n → z < t.x m := by
        by_cases hmn : m ≤ t.n
        · filter_upwards [eventually_lt_nhds (g3 hmn)] with z hz _ using hz
        · exact Filter.Eventually.of_forall fun z hz => absurd hz hmn
      have b : ∀ᶠ z in nhds y, m ≠ 0 → t.x (m - 1) ≤ z := by
        rcases hin with h0 | h0
        · exact Filter.Eventually.of_forall fun z hz => absurd h0 hz
        · filter_upwards [eventually_gt_nhds h0] with z hz _ using le_of_lt hz
      filter_upwards [a, b] with z ha hb
      exact h.place_eq z m g1 hb ha
    refine (hP m y).congr_of_eventuallyEq ?_
    filter_upwards [left] with z hz
    rw [hz]
  · push Not at hin
    obtain ⟨h0, hle⟩ := hin
    obtain ⟨k, rfl⟩ : ∃ k, m = k + 1 := ⟨m - 1, by omega⟩
    simp only [Nat.add_sub_cancel] at hle
    have hy : y = t.x k := le_antisymm hle (g2 k (by omega))
    obtain ⟨j1, j2⟩ := hj k (by omega) hy
    have left : ∀ᶠ z in nhdsWithin y (Set.Iio y), t.place z = k := by
      have b : ∀ᶠ z in nhds y, k ≠ 0 → t.x (k - 1) ≤ z := by
        by_cases hk : k = 0
        · exact Filter.Eventually.of_forall fun z hz => absurd hk hz
        · have : t.x (k - 1) < y := by rw [hy]; exact h.mono (by omega) (by omega)
          filter_upwards [eventually_gt_nhds this] with z hz _ using le_of_lt hz
      filter_upwards [nhdsWithin_le_nhds b, self_mem_nhdsWithin] with z hb hz
      exact h.place_eq z k (by omega) hb (fun _ => by rw [← hy]; exact hz)
    have dr : HasDerivWithinAt (fun z => P (t.place z) z) (D (k + 1) y) (Set.Ici y) y := by
      refine (hP (k + 1) y).hasDerivWithinAt.congr_of_eventuallyEq ?_ (by rw [hm])
      filter_upwards [right] with z hz
      rw [hz]
    have dl : HasDerivWithinAt (fun z => P (t.place z) z) (D (k + 1) y) (Set.Iio y) y := by
      rw [← j2]
      refine (hP k y).hasDerivWithinAt.congr_of_eventuallyEq ?_ (by rw [hm, j1])
      filter_upwards [left] with z hz
      rw [hz]
    have := dl.union dr
    rwa [Set.Iio_union_Ici, hasDerivWithinAt_univ] at this

/-- Pieces that meet make a continuous function. -/
theorem glue_cont {t : Table ℝ} (h : t.Ok) (P : ℕ → ℝ → ℝ) (hP : ∀ k, Continuous (P k)) (y : ℝ)
    (hj : ∀ k, k ≤ t.n → y = t.x k → P k y = P (k + 1) y) : ContinuousAt (fun z => P (t.place z) z) y := by
  -- write each piece as the derivative of nothing: repeat the argument with continuity
  obtain ⟨g1, g2, g3⟩ := t.place_spec y
  generalize hm : t.place y = m at *
  have up : ∀ᶠ z in nhds y, m ≤ t.n → z < t.x m := by
    by_cases hmn : m ≤ t.n
    · filter_upwards [eventually_lt_nhds (g3 hmn)] with z hz _ using hz
    · exact Filter.Eventually.of_forall fun z hz => absurd hz hmn
  by_cases hin : m = 0 ∨ t.x (m - 1) < y
  · have b : ∀ᶠ z in nhds y, m ≠ 0 → t.x (m - 1) ≤ z := by
      rcases hin with h0 | h0
      · exact Filter.Eventually.of_forall fun z hz => absurd h0 hz
      · filter_upwards [eventually_gt_nhds h0] with z hz _ using le_of_lt hz
    refine ((hP m).continuousAt (x := y)).congr ?_
    filter_upwards [up, b] with z ha hb
    rw [h.place_eq z m g1 hb ha]
  · push Not at hin
    obtain ⟨h0, hle⟩ := hin
    obtain ⟨k, rfl⟩ : ∃ k, m = k + 1 := ⟨m - 1, by omega⟩
    simp only [Nat.add_sub_cancel] at hle
    have hy : y = t.x k := le_antisymm hle (g2 k (by omega))
    have j1 := hj k (by omega) hy
    have b : ∀ᶠ z in nhds y, k ≠ 0 → t.x (k - 1) ≤ z := by
      by_cases hk : k = 0
      · exact Filter.Eventually.of_forall fun z hz => absurd hk hz
      · have : t.x (k - 1) < y := by rw [hy]; exact h.mono (by omega) (by omega)
        filter_upwards [eventually_gt_nhds this] with z hz _ using le_of_lt hz
    have dr : ContinuousWithinAt (fun z => P (t.place z) z) (Set.Ici y) y := by
      refine ((hP (k + 1)).continuousAt (x := y)).continuousWithinAt.congr_of_eventuallyEq ?_ (by rw [hm])
      filter_upwards [nhdsWithin_le_nhds up, self_mem_nhdsWithin] with z hz hz2
      rw [h.place_eq z (k + 1) g1 (fun _ => by simpa [← hy] using hz2) hz]
    have dl : ContinuousWithinAt (fun z => P (t.place z) z) (Set.Iio y) y := by
      refine ((hP k).continuousAt (x := y)).continuousWithinAt.congr_of_eventuallyEq ?_ (by rw [hm, j1])
      filter_upwards [nhdsWithin_le_nhds b, self_mem_nhdsWithin] with z hb hz
      rw [h.place_eq z k (by omega) hb (fun _ => by rw [← hy]; exact hz)]
    have := dl.union dr
    rwa [Set.Iio_union_Ici, continuousWithinAt_univ] at this

theorem piece_deriv (s : Spl ℝ) (k : ℕ) (y : ℝ) : HasDerivAt (s.piece k) (s.dpiece k y) y := by
  rcases k with _ | i
  · have h1 : HasDerivAt (fun z : ℝ => z - s.t.x 0) 1 y := (hasDerivAt_id y).sub_const _
    have h2 := (h1.mul_const s.d0).const_add (s.t.f 0)
    exact h2.congr_deriv (by simp [Spl.dpiece])
  · have h1 : HasDerivAt (fun z : ℝ => z - s.t.x i) 1 y := (hasDerivAt_id y).sub_const _
    have h2 := (h1.mul ((h1.mul ((h1.mul_const (s.f3 i)).const_add (s.f2 i))).const_add (s.f1 i))).const_add (s.t.f i)
    refine h2.congr_deriv ?_
    simp [Spl.dpiece]
    ring

theorem dpiece_deriv (s : Spl ℝ) (k : ℕ) (y : ℝ) : HasDerivAt (s.dpiece k) (s.ddpiece k y) y := by
  rcases k with _ | i
  · exact hasDerivAt_const y s.d0
  · have h1 : HasDerivAt (fun z : ℝ => z - s.t.x i) 1 y := (hasDerivAt_id y).sub_const _
    have h2 := (h1.mul (((h1.const_mul 3).mul_const (s.f3 i)).const_add (2 * s.f2 i))).const_add (s.f1 i)
    refine h2.congr_deriv ?_
    simp [Spl.ddpiece]
    ring

theorem ddpiece_cont (s : Spl ℝ) (k : ℕ) : Continuous (s.ddpiece k) := by
  rcases k with _ | i
  · exact continuous_const
  · unfold Spl.ddpiece; fun_prop

theorem piece_cont (s : Spl ℝ) (k : ℕ) : Continuous (s.piece k) :=
  continuous_iff_continuousAt.mpr fun y => (piece_deriv s k y).continuousAt

theorem at_f0 (s : Spl ℝ) (hs : s.Shape) : (fun y => (s.at y).f0) = fun y => s.piece (s.t.place y) y := by
  funext y; rw [at_eq s hs]
theorem at_f1 (s : Spl ℝ) (hs : s.Shape) : (fun y => (s.at y).f1) = fun y => s.dpiece (s.t.place y) y := by
  funext y; rw [at_eq s hs]

/-- **C31, order 1**: continuous everywhere, and off the knots the reported slope is the derivative. -/
theorem order1 (nv : ℝ) (t : Table ℝ) (h : t.Ok) (d0 dn : Option ℝ) :
    (∀ k, k ≤ t.n → ((construct1 nv t d0 dn).at (t.x k)).f0 = t.f k) ∧
    Continuous (fun y => ((construct1 nv t d0 dn).at y).f0) ∧
    (∀ y, (∀ k, k ≤ t.n → y ≠ t.x k) → HasDerivAt (fun z => ((construct1 nv t d0 dn).at z).f0) ((construct1 nv t d0 dn).at y).f1 y) := by
  set s := construct1 nv t d0 dn
  have hs : s.Shape := shape1 nv t d0 dn
  have hj : s.Joins := joins1 nv t h d0 dn
  refine ⟨fun k hk => at_knot s hs h k hk, ?_, ?_⟩
  · rw [at_f0 s hs, continuous_iff_continuousAt]
    exact fun y => glue_cont (t := s.t) h s.piece (piece_cont s) y fun k hk hy => by rw [hy]; exact join_value s hj k hk
  · intro y hy
    rw [at_f0 s hs]
    have e : (s.at y).f1 = s.dpiece (s.t.place y) y := by rw [at_eq s hs]
    rw [e]
    exact glue (t := s.t) h s.piece s.dpiece (piece_deriv s) y fun k hk hk2 => absurd hk2 (hy k hk)

/-- **C31, order 1, outside of the table**: a straight line with the given slope, or with the slope of the chord at that end. -/
theorem order1_ends {F : Type _} [Field F] [LinearOrder F] [IsStrictOrderedRing F] (nv : F) (t : Table F) (h : t.Ok) (d0 dn : Option F) :
    (∀ y, y < t.x 0 → let d := d0.getD ((t.f 1 - t.f 0) / (t.x 1 - t.x 0))
      (construct1 nv t d0 dn).at y = ⟨y, t.f 0 + (y - t.x 0) * d, d⟩) ∧
    (∀ y, t.x t.n ≤ y → let d := dn.getD ((t.f t.n - t.f (t.n - 1)) / (t.x t.n - t.x (t.n - 1)))
      (construct1 nv t d0 dn).at y = ⟨y, t.f t.n + (y - t.x t.n) * d, d⟩) := by
  have h2 := h.two
  constructor
  · intro y hy
    have hp : (construct1 nv t d0 dn).t.place y = 0 :=
      Table.Ok.place_eq (t := t) h y 0 (by omega) (fun hc => absurd rfl hc) (fun _ => hy)
    rw [at_eq _ (shape1 nv t d0 dn), hp]
    cases d0 with
    | none => simp [Spl.piece, Spl.dpiece, construct1, Table.slope, Table.h, show t.n ≠ 0 by omega]
    | some d => simp [Spl.piece, Spl.dpiece, construct1]
  · intro y hy
    have hp : (construct1 nv t d0 dn).t.place y = t.n + 1 :=
      Table.Ok.place_eq (t := t) h y (t.n + 1) le_rfl (fun _ => hy) (fun hc => by omega)
    have e : t.n - 1 + 1 = t.n := by omega
    rw [at_eq _ (shape1 nv t d0 dn), hp]
    cases dn with
    | none => simp [Spl.piece, Spl.dpiece, construct1, Table.slope, Table.h, e]
    | some d => simp [Spl.piece, Spl.dpiece, construct1]

/-- **C31, order 2, outside of the table**: a straight line; a given slope is the slope there, on both sides. -/
theorem order2_ends {F : Type _} [Field F] [LinearOrder F] [IsStrictOrderedRing F] (t : Table F) (h : t.Ok) (d0 dn : Option F) :
    (∀ y d, y < t.x 0 → d0 = some d → (construct2 t d0 dn).at y = ⟨y, t.f 0 + (y - t.x 0) * d, d⟩) ∧
    (∀ y d, t.x t.n ≤ y → dn = some d → (construct2 t d0 dn).at y = ⟨y, t.f t.n + (y - t.x t.n) * d, d⟩) := by
  have h2 := h.two
  constructor
  · rintro y d hy rfl
    have hp : (construct2 t (some d) dn).t.place y = 0 :=
      Table.Ok.place_eq (t := t) h y 0 (by omega) (fun hc => absurd rfl hc) (fun _ => hy)
    rw [at_eq _ (shape2 t _ dn), hp]
    simp [Spl.piece, Spl.dpiece, construct2]
  · rintro y d hy rfl
    have hp : (construct2 t d0 (some d)).t.place y = t.n + 1 :=
      Table.Ok.place_eq (t := t) h y (t.n + 1) le_rfl (fun _ => hy) (fun hc => by omega)
    rw [at_eq _ (shape2 t d0 _), hp]
    cases d0 <;> simp [Spl.piece, Spl.dpiece, construct2, f1of2, down2]

/-- **C31, order 2**: the reported slope is the derivative everywhere; at the first knot provided not both end slopes are given. -/
theorem order2 (t : Table ℝ) (h : t.Ok) (d0 dn : Option ℝ) :
    (∀ k, k ≤ t.n → ((construct2 t d0 dn).at (t.x k)).f0 = t.f k) ∧
    Continuous (fun y => ((construct2 t d0 dn).at y).f0) ∧
    (∀ y, (y ≠ t.x 0 ∨ d0 = none ∨ dn = none) →
      HasDerivAt (fun z => ((construct2 t d0 dn).at z).f0) ((construct2 t d0 dn).at y).f1 y ∧
      ContinuousAt (fun z => ((construct2 t d0 dn).at z).f1) y) ∧
    (∀ d, d0 = some d → dn = none → ((construct2 t d0 dn).at (t.x 0)).f1 = d) ∧
    (∀ d, dn = some d → ((construct2 t d0 dn).at (t.x t.n)).f1 = d) := by
  set s := construct2 t d0 dn with hsdef
  have hs : s.Shape := shape2 t d0 dn
  have hj : s.Joins := joins2 t h d0 dn
  have slope_knot : ∀ k, k ≤ t.n → (s.at (t.x k)).f1 = s.f1 k := by
    intro k hk
    rw [at_eq s hs]
    have : s.t.place (t.x k) = k + 1 := by
      apply Table.Ok.place_eq (t := s.t) h
      · have : s.t.n = t.n := rfl
        omega
      · intro _; exact le_rfl
      · intro h'; exact h.mono (by omega) h'
    rw [this]
    have : s.t.x k = t.x k := rfl
    simp [Spl.dpiece, this]
  have hd : ∀ y, (y ≠ t.x 0 ∨ d0 = none ∨ dn = none) → ∀ k, k ≤ t.n → y = t.x k → s.dpiece k y = s.dpiece (k + 1) y := by
    intro y hy k hk hyk
    subst hyk
    have e : s.dpiece (k + 1) (t.x k) = s.f1 k := by
      have : s.t.x k = t.x k := rfl
      simp [Spl.dpiece, this]
    rw [e]
    rcases k with _ | i
    · have hh : d0 = none ∨ dn = none := hy.resolve_left (fun hc => hc rfl)
      simp only [Spl.dpiece, hsdef, construct2]
      cases d0 with
      | none => rfl
      | some d =>
        cases dn with
        | none => rfl
        | some _ => simp at hh
    · exact djoins2 t h d0 dn i (by omega)
  refine ⟨fun k hk => at_knot s hs h k hk, ?_, ?_, ?_, ?_⟩
  · rw [at_f0 s hs, continuous_iff_continuousAt]
    exact fun y => glue_cont (t := s.t) h s.piece (piece_cont s) y fun k hk hy => by rw [hy]; exact join_value s hj k hk
  · intro y hy
    have e : (s.at y).f1 = s.dpiece (s.t.place y) y := by rw [at_eq s hs]
    constructor
    · rw [at_f0 s hs, e]
      exact glue (t := s.t) h s.piece s.dpiece (piece_deriv s) y fun k hk hk2 =>
        ⟨by rw [hk2]; exact join_value s hj k hk, hd y hy k hk hk2⟩
    · rw [at_f1 s hs]
      exact glue_cont (t := s.t) h s.dpiece
        (fun k => continuous_iff_continuousAt.mpr fun z => (dpiece_deriv s k z).continuousAt) y fun k hk hk2 => hd y hy k hk hk2
  · intro d h1 h2
    rw [slope_knot 0 (by omega)]
    subst h1 h2
    rfl
  · intro d h1
    rw [slope_knot t.n le_rfl]
    subst h1
    cases d0 <;> simp [hsdef, construct2, f1of2, down2]

/-- (specification) the second derivative -/
noncomputable def Spl.second (s : Spl ℝ) (y : ℝ) : ℝ := s.ddpiece (s.t.place y) y

/-- **C31, order 3**: interpolates, continuous; from the first knot on the reported slope is the derivative, and below it too unless
`_d0` is not the slope of the first piece (`two_points_wrong`); between the first and the last knot it is twice continuously
differentiable; the end conditions hold. -/
theorem order3_partial (tol nv : ℝ) (t : Table ℝ) (h : t.Ok) (d0 dn : Option ℝ) :
    (∀ k, k ≤ t.n → ((construct3 tol nv t d0 dn).at (t.x k)).f0 = t.f k) ∧
    Continuous (fun y => ((construct3 tol nv t d0 dn).at y).f0) ∧
    (∀ y, (y ≠ t.x 0 ∨ (construct3 tol nv t d0 dn).d0 = s3 t d0 dn 0) →
      HasDerivAt (fun z => ((construct3 tol nv t d0 dn).at z).f0) ((construct3 tol nv t d0 dn).at y).f1 y) ∧
    (∀ y, t.x 0 < y → y < t.x t.n →
      HasDerivAt (fun z => ((construct3 tol nv t d0 dn).at z).f1) ((construct3 tol nv t d0 dn).second y) y ∧
      ContinuousAt (construct3 tol nv t d0 dn).second y) ∧
    (match d0 with
     | none => (construct3 tol nv t d0 dn).second (t.x 0) = 0
     | some d => ((construct3 tol nv t d0 dn).at (t.x 0)).f1 = d) ∧
    (match dn with
     | none => ContinuousAt (construct3 tol nv t d0 dn).second (t.x t.n) ∧ (construct3 tol nv t d0 dn).second (t.x t.n) = 0
     | some d => ((construct3 tol nv t d0 dn).at (t.x t.n)).f1 = d) := by
  have h2 := h.two
  set s := construct3 tol nv t d0 dn with hsdef
  have hs : s.Shape := shape3 tol nv t d0 dn
  have hj : s.Joins := joins3 tol nv t h d0 dn
  have hpl : ∀ k, k ≤ t.n → s.t.place (t.x k) = k + 1 := by
    intro k hk
    apply Table.Ok.place_eq (t := s.t) h
    · have : s.t.n = t.n := rfl
      omega
    · intro _; exact le_rfl
    · intro h'; exact h.mono (by omega) h'
  have hsx : ∀ k, s.t.x k = t.x k := fun _ => rfl
  have slope_knot : ∀ k, k ≤ t.n → (s.at (t.x k)).f1 = s.f1 k := by
    intro k hk
    rw [at_eq s hs, hpl k hk]
    simp [Spl.dpiece, hsx]
  have e1 : ∀ k, s.dpiece (k + 1) (t.x k) = s.f1 k := by intro k; simp [Spl.dpiece, hsx]
  have e2 : ∀ k, s.ddpiece (k + 1) (t.x k) = 2 * s.f2 k := by intro k; simp [Spl.ddpiece, hsx]
  have hd : ∀ y, (y ≠ t.x 0 ∨ s.d0 = s3 t d0 dn 0) → ∀ k, k ≤ t.n → y = t.x k → s.dpiece k y = s.dpiece (k + 1) y := by
    intro y hy k hk hyk
    subst hyk
    rw [e1]
    rcases k with _ | i
    · have hh := hy.resolve_left (fun hc => hc rfl)
      have : s.f1 0 = s3 t d0 dn 0 := by
        simp only [hsdef, construct3]; rw [if_neg (by omega)]
      rw [this]; exact hh
    · exact djoins3 tol nv t h d0 dn i (by omega)
  have hdd : ∀ k, 0 < k → k < t.n → s.ddpiece k (t.x k) = s.ddpiece (k + 1) (t.x k) := by
    intro k hk0 hk
    rw [e2]
    obtain ⟨i, rfl⟩ : ∃ i, k = i + 1 := ⟨k - 1, by omega⟩
    exact ddjoins3 tol nv t h d0 dn i hk
  have inner : ∀ y, t.x 0 < y → y < t.x t.n → ∀ k, k ≤ t.n → y = t.x k → 0 < k ∧ k < t.n := by
    intro y h1 h3 k hk hyk
    subst hyk
    refine ⟨Nat.pos_of_ne_zero fun h0 => ?_, lt_of_le_of_ne hk fun h0 => ?_⟩
    · rw [h0] at h1; exact lt_irrefl _ h1
    · rw [h0] at h3; exact lt_irrefl _ h3
  refine ⟨fun k hk => at_knot s hs h k hk, ?_, ?_, ?_, ?_, ?_⟩
  · rw [at_f0 s hs, continuous_iff_continuousAt]
    exact fun y => glue_cont (t := s.t) h s.piece (piece_cont s) y fun k hk hy => by rw [hy]; exact join_value s hj k hk
  · intro y hy
    have e : (s.at y).f1 = s.dpiece (s.t.place y) y := by rw [at_eq s hs]
    rw [at_f0 s hs, e]
    exact glue (t := s.t) h s.piece s.dpiece (piece_deriv s) y fun k hk hk2 =>
      ⟨by rw [hk2]; exact join_value s hj k hk, hd y hy k hk hk2⟩
  · intro y h1 h3
    constructor
    · rw [at_f1 s hs]
      refine glue (t := s.t) h s.dpiece s.ddpiece (dpiece_deriv s) y fun k hk hk2 => ⟨hd y (Or.inl (ne_of_gt h1)) k hk hk2, ?_⟩
      obtain ⟨a, b⟩ := inner y h1 h3 k hk hk2
      rw [hk2]; exact hdd k a b
    · refine glue_cont (t := s.t) h s.ddpiece (ddpiece_cont s) y fun k hk hk2 => ?_
      obtain ⟨a, b⟩ := inner y h1 h3 k hk hk2
      rw [hk2]; exact hdd k a b
  · cases d0 with
    | none =>
      simp only [Spl.second]
      rw [hpl 0 (by omega)]
      exact (ddends3 tol nv t h none dn).1 rfl
    | some d =>
      simp only
      rw [slope_knot 0 (by omega)]
      have : s.f1 0 = s3 t (some d) dn 0 := by
        simp only [hsdef, construct3]; rw [if_neg (by omega)]
      rw [this]
      exact m3_begin t h (some d) dn
  · cases dn with
    | none =>
      simp only
      have hz : s.ddpiece (t.n + 1) (t.x t.n) = 0 := by
        rw [e2]; simp [hsdef, construct3]
      constructor
      · refine glue_cont (t := s.t) h s.ddpiece (ddpiece_cont s) _ fun k hk hk2 => ?_
        have : k = t.n := by
          by_contra hne
          have hlt : k < t.n := lt_of_le_of_ne hk hne
          have := h.mono hlt le_rfl
          rw [hk2] at this; exact lt_irrefl _ this
        subst this
        rw [hz]
        exact (ddends3 tol nv t h d0 none).2 rfl
      · simp only [Spl.second]
        rw [hpl t.n le_rfl]; exact hz
    | some d =>
      simp only
      rw [slope_knot t.n le_rfl]
      simp [hsdef, construct3]

/-! ### examples and defects -/

/-- 0, 1, 0, 2 at 0, 1, 2, 4 -/
def demo : Table ℚ := ⟨3, fun i => if i = 3 then 4 else i, fun i => if i = 1 then 1 else if i = 3 then 2 else 0⟩

example : demo.Ok := ⟨by decide +kernel, by decide +kernel⟩
def demoR : Table ℝ := ⟨1, fun i => i, fun i => i ^ 2⟩
theorem demoR_ok : demoR.Ok := ⟨le_rfl, fun i _ => by simp [demoR]⟩
/-- the natural cubic spline through `demo` -/
example : ((construct3 (1 / 10 ^ 13) (-10 ^ 300) demo none none).at (1 / 2)).f0 = 67 / 92 ∧
    ((construct3 (1 / 10 ^ 13) (-10 ^ 300) demo none none).at 4).f0 = 2 := by decide +kernel

/-- order 1 with slopes 5 and 7 outside -/
example : (construct1 0 demo (some 5) (some 7)).at (-1) = ⟨-1, -5, 5⟩ ∧ (construct1 0 demo (some 5) (some 7)).at 5 = ⟨5, 9, 7⟩ := by
  have h : demo.Ok := ⟨by decide +kernel, by decide +kernel⟩
  refine ⟨((order1_ends 0 demo h _ _).1 (-1) (by decide +kernel)).trans (by decide +kernel),
    ((order1_ends 0 demo h _ _).2 5 (by decide +kernel)).trans (by decide +kernel)⟩

/-- order 2 with slope 7 above -/
example : (construct2 demo none (some 7)).at 5 = ⟨5, 9, 7⟩ :=
  ((order2_ends demo ⟨by decide +kernel, by decide +kernel⟩ _ _).2 5 7 (by decide +kernel) rfl).trans (by decide +kernel)

/-- **C31 is false with two points**: the slope of a cubic spline below the first point is 0, whatever the points and the given
slope, because `_d0` is compared with an entry that is not set yet (m_spline.cc:234).  (`NOT_VALID · roundofftol` is larger than
any slope.)  With a slope given that is not 0 the assertion after it fails. -/
theorem two_points_wrong {F : Type _} [Field F] [LinearOrder F] [IsStrictOrderedRing F] (tol nv : F) (t : Table F) (hn : t.n = 1)
    (d0 dn : Option F) (hnv : |s3 t d0 dn 0| < |nv * tol|) (y : F) (hy : y < t.x 0) :
    ((construct3 tol nv t d0 dn).at y).f1 = 0 ∧ ((construct3 tol nv t d0 dn).at y).f0 = t.f 0 := by
  have hd : (construct3 tol nv t d0 dn).d0 = 0 := by
    simp only [construct3, fixzero, hn, if_true]
    rw [if_pos hnv]
  have hu : upper (construct3 tol nv t d0 dn).t.x y ((construct3 tol nv t d0 dn).t.n + 1) 0 = 0 := by
    have : (construct3 tol nv t d0 dn).t.x 0 = t.x 0 := rfl
    rw [upper, if_neg (by rw [this]; exact not_le.mpr hy)]
  unfold Spl.at
  simp only [hu, if_true, hd]
  have ho : (construct3 tol nv t d0 dn).order ≠ 0 := by simp [construct3]
  rw [if_neg ho]
  simp [construct3]

/-- points (0,0), (1,1): the straight line, but flat below 0 -/
example : let s := construct3 (1 / 10 ^ 13 : ℚ) (-10 ^ 300) ⟨1, fun i => i, fun i => i⟩ none none
    (s.at (1 / 2)).f0 = 1 / 2 ∧ (s.at 2).f0 = 2 ∧ (s.at (-1)).f0 = 0 := by decide +kernel

/-- **C31 is false with one point**: reading outside of the arrays -/
theorem one_point_ub : let t : Table ℚ := ⟨0, fun _ => 1, fun _ => 2⟩
    (∀ d0 dn, (match construct 0 0 t d0 dn 3 with | .ub => True | _ => False)) ∧
    (match construct 0 0 t none none 2 with | .ub => True | _ => False) ∧
    (∀ d0, (match construct 0 0 t d0 none 1 with | .ub => True | _ => False)) := by
  refine ⟨fun d0 dn => ?_, ?_, fun d0 => ?_⟩ <;> simp [construct]

/-- duplicate points are refused, and nothing else with at least two points -/
theorem construct_accepts {F : Type _} [Field F] [LinearOrder F] [IsStrictOrderedRing F] (tol nv : F) (t : Table F) (h : t.Ok)
    (d0 dn : Option F) : construct tol nv t d0 dn 1 = .ok (construct1 nv t d0 dn) ∧ construct tol nv t d0 dn 2 = .ok (construct2 t d0 dn) ∧
    construct tol nv t d0 dn 3 = .ok (construct3 tol nv t d0 dn) := by
  have hn : t.n ≠ 0 := by have := h.two; omega
  have hz : ¬ (List.range t.n).any (fun i => decide (t.h i = 0)) = true := by
    simp only [List.any_eq_true, decide_eq_true_eq, not_exists, not_and, List.mem_range]
    intro i hi
    exact (h.h_pos hi).ne'
  refine ⟨?_, ?_, ?_⟩ <;> unfold construct <;> rw [if_neg hz] <;> simp [hn]

end Gnucap.Spline
