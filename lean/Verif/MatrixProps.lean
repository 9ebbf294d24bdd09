import Mathlib.Algebra.Order.Field.Rat
import Mathlib.Tactic.FinCases
import Mathlib.Tactic.IntervalCases
import Mathlib.Tactic.NormNum
import Verif.MatrixSolveLemmas

/-!
# Properties of the sparse matrix and its solvers (C01 – C07)

Specification vocabulary: `Solves`, `inc`, `Op`, `Disciplined`, `Reserved`, `cellIndex`.
-/
set_option linter.unusedSectionVars false
namespace Gnucap.Mat

variable {F : Type _} [Field F] [DecidableEq F]

/-! ## C06: reservation -/

/-- Specification: `(i,j)` was asked for, in either order, and neither is ground. -/
def Reserved (reqs : List (ℕ × ℕ)) (i j : ℕ) : Prop :=
  i ≠ 0 ∧ j ≠ 0 ∧ ((i, j) ∈ reqs ∨ (j, i) ∈ reqs)

theorem iwant_apply (low : ℕ → ℕ) (h : ∀ k, low k ≤ k) (a b k : ℕ) :
    iwant low a b k =
      if a ≠ 0 ∧ b ≠ 0 ∧ k = max a b then min (low k) (min a b) else low k := by
  unfold iwant
  have ha := h a
  have hb := h b
  by_cases h0 : a = 0 ∨ b = 0
  · rw [if_pos h0, if_neg (by omega)]
  · rw [if_neg h0]
    by_cases h1 : a < low b
    · rw [if_pos h1]
      by_cases hk : k = b
      · subst hk
        rw [if_pos rfl, if_pos (by omega)]; omega
      · simp only [hk, if_false]; rw [if_neg (by omega)]
    · rw [if_neg h1]
      by_cases h2 : b < low a
      · rw [if_pos h2]
        by_cases hk : k = a
        · subst hk
          rw [if_pos rfl, if_pos (by omega)]; omega
        · simp only [hk, if_false]; rw [if_neg (by omega)]
      · rw [if_neg h2]
        split
        · rename_i hh
          obtain ⟨_, _, hk⟩ := hh
          rcases le_total a b with hab | hab
          · have : k = b := by omega
            subst this; omega
          · have : k = a := by omega
            subst this; omega
        · rfl

/-- C06 (main statement): after any list of requests, the low node of `k` is the smallest partner (not above `k`) that
was reserved together with `k`, or `k` itself. -/
theorem iwantAll_spec (reqs : List (ℕ × ℕ)) (k : ℕ) :
    iwantAll reqs k ≤ k ∧
    (∀ j, Reserved reqs j k → j ≤ k → iwantAll reqs k ≤ j) ∧
    (iwantAll reqs k = k ∨ Reserved reqs (iwantAll reqs k) k) := by
  have gen : ∀ (reqs done : List (ℕ × ℕ)) (low : ℕ → ℕ),
      (∀ k, low k ≤ k ∧ (∀ j, Reserved done j k → j ≤ k → low k ≤ j) ∧
        (low k = k ∨ Reserved done (low k) k)) →
      ∀ k, (reqs.foldl (fun low p => iwant low p.1 p.2) low) k ≤ k ∧
        (∀ j, Reserved (done ++ reqs) j k → j ≤ k →
          (reqs.foldl (fun low p => iwant low p.1 p.2) low) k ≤ j) ∧
        ((reqs.foldl (fun low p => iwant low p.1 p.2) low) k = k ∨
          Reserved (done ++ reqs) ((reqs.foldl (fun low p => iwant low p.1 p.2) low) k) k) := by
    intro reqs
    induction reqs with
    | nil => intro done low h k; simpa using h k
    | cons p t ih =>
      intro done low h k
      have := ih (done ++ [p]) (iwant low p.1 p.2) ?_ k
      · rw [List.append_assoc] at this
        simpa using this
      · intro k
        have hle := fun k => (h k).1
        rw [iwant_apply low hle]
        obtain ⟨h1, h2, h3⟩ := h k
        obtain ⟨a, b⟩ := p
        simp only
        by_cases hc : a ≠ 0 ∧ b ≠ 0 ∧ k = max a b
        · rw [if_pos hc]
          refine ⟨by omega, ?_, ?_⟩
          · intro j hj hjk
            obtain ⟨hj0, hk0, hm⟩ := hj
            simp only [List.mem_append, List.mem_singleton, Prod.mk.injEq] at hm
            by_cases hd : (j, k) ∈ done ∨ (k, j) ∈ done
            · have := h2 j ⟨hj0, hk0, hd⟩ hjk; omega
            · have : (j = a ∧ k = b) ∨ (k = a ∧ j = b) := by tauto
              omega
          · by_cases hmin : low k ≤ min a b
            · rw [min_eq_left hmin]
              rcases h3 with h3 | ⟨h3a, h3b, h3c⟩
              · exact Or.inl h3
              · right; refine ⟨h3a, h3b, ?_⟩
                simp only [List.mem_append]; tauto
            · rw [min_eq_right (by omega)]
              right
              refine ⟨by omega, by omega, ?_⟩
              simp only [List.mem_append, List.mem_singleton, Prod.mk.injEq]
              omega
        · rw [if_neg hc]
          refine ⟨h1, ?_, ?_⟩
          · intro j hj hjk
            obtain ⟨hj0, hk0, hm⟩ := hj
            simp only [List.mem_append, List.mem_singleton, Prod.mk.injEq] at hm
            by_cases hd : (j, k) ∈ done ∨ (k, j) ∈ done
            · exact h2 j ⟨hj0, hk0, hd⟩ hjk
            · exfalso
              have : (j = a ∧ k = b) ∨ (k = a ∧ j = b) := by tauto
              omega
          · rcases h3 with h3 | ⟨h3a, h3b, h3c⟩
            · exact Or.inl h3
            · right; refine ⟨h3a, h3b, ?_⟩
              simp only [List.mem_append]; tauto
  have := gen reqs [] lowInit (by
    intro k
    refine ⟨le_refl _, ?_, Or.inl rfl⟩
    rintro j ⟨_, _, h⟩
    simp at h) k
  simpa [iwantAll] using this

/-- every profile produced by `init` and `iwant` is well formed, for every size -/
theorem iwantAll_wf (n : ℕ) (reqs : List (ℕ × ℕ)) : WF n (iwantAll reqs) := by
  intro m h1 _
  obtain ⟨h2, _, h3⟩ := iwantAll_spec reqs m
  refine ⟨?_, h2⟩
  rcases h3 with h3 | ⟨h3, _⟩ <;> omega

/-- C06: whatever was reserved is inside the profile (both triangles: the test is on max and min). -/
theorem iwantAll_covers (reqs : List (ℕ × ℕ)) (i j : ℕ) (h : Reserved reqs i j) :
    iwantAll reqs (max i j) ≤ min i j := by
  rcases le_total i j with hij | hij
  · rw [max_eq_right hij, min_eq_left hij]
    exact (iwantAll_spec reqs j).2.1 i h hij
  · rw [max_eq_left hij, min_eq_right hij]
    exact (iwantAll_spec reqs i).2.1 j ⟨h.2.1, h.1, h.2.2.symm⟩ hij

/-- C06: order, repetition and orientation of the requests do not matter. -/
theorem iwantAll_order_independent (reqs reqs' : List (ℕ × ℕ))
    (h : ∀ i j, Reserved reqs i j ↔ Reserved reqs' i j) : iwantAll reqs = iwantAll reqs' := by
  funext k
  obtain ⟨a1, a2, a3⟩ := iwantAll_spec reqs k
  obtain ⟨b1, b2, b3⟩ := iwantAll_spec reqs' k
  apply le_antisymm
  · rcases b3 with b3 | b3
    · omega
    · exact a2 _ ((h _ _).2 b3) b1
  · rcases a3 with a3 | a3
    · omega
    · exact b2 _ ((h _ _).1 a3) a1

example : iwantAll [(2, 5), (5, 3), (0, 4), (4, 4)] 5 = 2 ∧ iwantAll [(2, 5), (5, 3), (0, 4)] 4 = 4 := by decide
example : ∀ i j, Reserved [(2, 5), (3, 1), (2, 5)] i j ↔ Reserved [(1, 3), (5, 2)] i j := by
  intro i j; simp only [Reserved, List.mem_cons, Prod.mk.injEq, List.not_mem_nil, or_false]; omega

/-! ## C05: storage -/

/-- Start of row/column `i`'s cells in the block: the running `point` of `allocate` (m_matrix.h:549-553). -/
def blockStart (low : ℕ → ℕ) : ℕ → ℕ
  | 0 => 0
  | i + 1 => blockStart low i + (2 * (i - low i) + 1)

/-- `_nzcount` as computed by `allocate` (m_matrix.h:536-539). -/
def nzcount (low : ℕ → ℕ) (n : ℕ) : ℕ := blockStart low (n + 1)

/-- `_diaptr[i] - _space` (m_matrix.h:551). -/
def diaptr (low : ℕ → ℕ) (i : ℕ) : ℕ := blockStart low i + i - low i

/-- Cell addressed by `d`, `u`, `l` or `m` (m_matrix.h:603, 620, 637, 658), all of which are
`_diaptr[max(r,c)][r-c]`; as an integer, because a wrong access could be negative. -/
def cellIndex (low : ℕ → ℕ) (r c : ℕ) : ℤ := (diaptr low (max r c) : ℤ) + ((r : ℤ) - (c : ℤ))

theorem blockStart_mono (low : ℕ → ℕ) : ∀ {i j : ℕ}, i ≤ j → blockStart low i ≤ blockStart low j := by
  intro i j h
  induction h with
  | refl => exact le_refl _
  | step _ ih => rw [blockStart]; omega

theorem cellIndex_block (low : ℕ → ℕ) (r c : ℕ) (hl : low (max r c) ≤ min r c) :
    (blockStart low (max r c) : ℤ) ≤ cellIndex low r c ∧ cellIndex low r c < blockStart low (max r c + 1) := by
  unfold cellIndex diaptr
  rw [blockStart]
  omega

/-- C05: every access to a position in the profile stays inside the allocated block. -/
theorem cellIndex_in_bounds (low : ℕ → ℕ) (n r c : ℕ) (hr : r ≤ n) (hc : c ≤ n)
    (hl : low (max r c) ≤ min r c) :
    0 ≤ cellIndex low r c ∧ cellIndex low r c < nzcount low n := by
  obtain ⟨h1, h2⟩ := cellIndex_block low r c hl
  have := blockStart_mono low (show max r c + 1 ≤ n + 1 by omega)
  unfold nzcount
  omega

/-- C05: two different positions of the profile never share a cell. -/
theorem cellIndex_injective (low : ℕ → ℕ) (r c r' c' : ℕ)
    (hl : low (max r c) ≤ min r c) (hl' : low (max r' c') ≤ min r' c')
    (h : cellIndex low r c = cellIndex low r' c') : r = r' ∧ c = c' := by
  obtain ⟨h1, h2⟩ := cellIndex_block low r c hl
  obtain ⟨h3, h4⟩ := cellIndex_block low r' c' hl'
  have hm : max r c = max r' c' := by
    rcases lt_trichotomy (max r c) (max r' c') with hlt | heq | hgt
    · have := blockStart_mono low (show max r c + 1 ≤ max r' c' by omega); omega
    · exact heq
    · have := blockStart_mono low (show max r' c' + 1 ≤ max r c by omega); omega
  unfold cellIndex at h
  rw [hm] at h
  omega

/-- C05: the cells of the profile are exactly as many as were allocated (none is wasted except row 0). -/
theorem nzcount_eq (low : ℕ → ℕ) (n : ℕ) :
    nzcount low n = ∑ i ∈ Finset.range (n + 1), (2 * (i - low i) + 1) := by
  unfold nzcount
  induction n with
  | zero => simp [blockStart]
  | succ n ih => rw [blockStart, ih, ← Finset.sum_range_succ]

/-- C05: the read access `s` sees the stored value inside the profile and zero outside. -/
theorem sget_spec (low : ℕ → ℕ) (hlow : ∀ k, low k ≤ k) (a : Arr F) (r c : ℕ) :
    sget low a r c = if low (max r c) ≤ min r c then a r c else 0 := by
  unfold sget
  have h1 := hlow r
  have h2 := hlow c
  rcases lt_trichotomy r c with h | h | h
  · rw [if_neg (by omega), if_pos h, max_eq_right h.le, min_eq_left h.le]
    split <;> split <;> first | rfl | omega
  · subst h; simp [h1]
  · rw [if_neg (by omega), if_neg (by omega), max_eq_left h.le, min_eq_right h.le]
    split <;> split <;> first | rfl | omega

example : (iwantAll [(1, 3)]) (max 1 3) ≤ min 1 3 := by decide

/-! ## C07: stamps -/

/-- Incidence of node `k` on row/column `i`; ground (0) is incident on nothing. -/
def inc (k i : ℕ) : F := if k ≠ 0 ∧ i = k then 1 else 0

theorem inc_zero (i : ℕ) : (inc 0 i : F) = 0 := by simp [inc]

theorem add_apply (s : Loaded F) (r c i j : ℕ) (v : F) (hr : 0 < r) (hc : 0 < c) :
    (s.add r c v).a i j = s.a i j + v * inc r i * inc c j := by
  unfold Loaded.add Arr.set inc
  by_cases h1 : i = r
  · by_cases h2 : j = c
    · subst h1; subst h2
      simp [hr.ne', hc.ne']
    · simp [h1, h2]
  · simp [h1]

@[simp] theorem setChanged_a (s : Loaded F) (i j : ℕ) : (s.setChanged i j).a = s.a := rfl
@[simp] theorem setChanged1_a (s : Loaded F) (i : ℕ) : (s.setChanged1 i).a = s.a := rfl
@[simp] theorem add_changed (s : Loaded F) (r c : ℕ) (v : F) : (s.add r c v).changed = s.changed := rfl

/-- C07: `load_point(i,j,v)` adds `v` at row i, column j and nothing else; ground is dropped. -/
theorem loadPoint_stamp (p q : ℕ) (v : F) (s : Loaded F) (i j : ℕ) :
    (loadPoint p q v s).a i j = s.a i j + v * (inc p i * inc q j) := by
  unfold loadPoint
  by_cases h : p > 0 ∧ q > 0
  · rw [if_pos h, add_apply _ _ _ _ _ _ h.1 h.2]; simp; ring
  · rw [if_neg h]
    have : p = 0 ∨ q = 0 := by omega
    rcases this with h | h <;> subst h <;> simp [inc_zero]

/-- C07: `load_diagonal_point(p,v)`. -/
theorem loadDiagonalPoint_stamp (p : ℕ) (v : F) (s : Loaded F) (i j : ℕ) :
    (loadDiagonalPoint p v s).a i j = s.a i j + v * (inc p i * inc p j) := by
  unfold loadDiagonalPoint
  by_cases h : p > 0
  · rw [if_pos h, add_apply _ _ _ _ _ _ h h]; simp; ring
  · have : p = 0 := by omega
    subst this; simp [inc_zero]

/-- C07: `load_couple(p,q,v)` subtracts `v` at both off-diagonal positions. -/
theorem loadCouple_stamp (p q : ℕ) (v : F) (s : Loaded F) (i j : ℕ) :
    (loadCouple p q v s).a i j = s.a i j - v * (inc p i * inc q j + inc q i * inc p j) := by
  unfold loadCouple
  by_cases hq : q > 0
  · rw [if_pos hq]
    by_cases hp : p > 0
    · rw [if_pos hp, add_apply _ _ _ _ _ _ hq hp]
      simp only [setChanged_a]
      rw [add_apply _ _ _ _ _ _ hp hq]; simp; ring
    · have : p = 0 := by omega
      subst this; simp [inc_zero]
  · have : q = 0 := by omega
    subst this; simp [inc_zero]

/-- C07: `load_symmetric(p,q,v)` is the stamp of a conductance `v` between nodes p and q:
`v * (e_p - e_q)(e_p - e_q)ᵀ`, with ground dropped; also right when p = q. -/
theorem loadSymmetric_stamp (p q : ℕ) (v : F) (s : Loaded F) (i j : ℕ) :
    (loadSymmetric p q v s).a i j = s.a i j + v * ((inc p i - inc q i) * (inc p j - inc q j)) := by
  unfold loadSymmetric
  by_cases hq : q > 0
  · rw [if_pos hq]
    by_cases hp : p > 0
    · simp only [if_pos hp]
      rw [add_apply _ _ _ _ _ _ hq hp, add_apply _ _ _ _ _ _ hp hq, add_apply _ _ _ _ _ _ hp hp]
      simp only [setChanged_a]
      rw [add_apply _ _ _ _ _ _ hq hq]; simp; ring
    · have : p = 0 := by omega
      subst this
      simp only [gt_iff_lt, lt_irrefl, if_false]
      rw [add_apply _ _ _ _ _ _ hq hq]; simp [inc_zero]; ring
  · have : q = 0 := by omega
    subst this
    simp only [gt_iff_lt, lt_irrefl, if_false]
    by_cases hp : p > 0
    · rw [if_pos hp, add_apply _ _ _ _ _ _ hp hp]; simp [inc_zero]; ring
    · have : p = 0 := by omega
      subst this; simp [inc_zero]

/-- C07: `load_asymmetric(r1,r2,c1,c2,v)` is the stamp of a current `v*(V(c1)-V(c2))` from r1 to r2:
`v * (e_r1 - e_r2)(e_c1 - e_c2)ᵀ`, for every combination of grounded or coinciding terminals. -/
theorem loadAsymmetric_stamp (r1 r2 c1 c2 : ℕ) (v : F) (s : Loaded F) (i j : ℕ) :
    (loadAsymmetric r1 r2 c1 c2 v s).a i j =
      s.a i j + v * ((inc r1 i - inc r2 i) * (inc c1 j - inc c2 j)) := by
  have half1 : ∀ (r : ℕ) (s : Loaded F), 0 < r →
      (let s := if c1 > 0 then (s.add r c1 v).setChanged r c1 else s
       if c2 > 0 then (s.add r c2 (-v)).setChanged r c2 else s).a i j =
      s.a i j + v * (inc r i * (inc c1 j - inc c2 j)) := by
    intro r s hr
    rcases Nat.eq_zero_or_pos c1 with h1 | h1 <;> rcases Nat.eq_zero_or_pos c2 with h2 | h2
    · subst h1; subst h2; simp [inc_zero]
    · subst h1; simp only [gt_iff_lt, lt_irrefl, if_false, if_pos h2, setChanged_a]
      rw [add_apply _ _ _ _ _ _ hr h2, inc_zero]; ring
    · subst h2; simp only [gt_iff_lt, lt_irrefl, if_false, if_pos h1, setChanged_a]
      rw [add_apply _ _ _ _ _ _ hr h1, inc_zero]; ring
    · simp only [gt_iff_lt, if_pos h1, if_pos h2, setChanged_a]
      rw [add_apply _ _ _ _ _ _ hr h2]
      simp only [setChanged_a]
      rw [add_apply _ _ _ _ _ _ hr h1]; ring
  have half2 : ∀ (r : ℕ) (s : Loaded F), 0 < r →
      (let s := if c1 > 0 then (s.setChanged r c1).add r c1 (-v) else s
       if c2 > 0 then (s.setChanged r c2).add r c2 v else s).a i j =
      s.a i j - v * (inc r i * (inc c1 j - inc c2 j)) := by
    intro r s hr
    rcases Nat.eq_zero_or_pos c1 with h1 | h1 <;> rcases Nat.eq_zero_or_pos c2 with h2 | h2
    · subst h1; subst h2; simp [inc_zero]
    · subst h1; simp only [gt_iff_lt, lt_irrefl, if_false, if_pos h2]
      rw [add_apply _ _ _ _ _ _ hr h2, inc_zero, setChanged_a]; ring
    · subst h2; simp only [gt_iff_lt, lt_irrefl, if_false, if_pos h1]
      rw [add_apply _ _ _ _ _ _ hr h1, inc_zero, setChanged_a]; ring
    · simp only [gt_iff_lt, if_pos h1, if_pos h2]
      rw [add_apply _ _ _ _ _ _ hr h2, setChanged_a, add_apply _ _ _ _ _ _ hr h1, setChanged_a]; ring
  unfold loadAsymmetric
  rcases Nat.eq_zero_or_pos r1 with h1 | h1 <;> rcases Nat.eq_zero_or_pos r2 with h2 | h2
  · subst h1; subst h2; simp [inc_zero]
  · subst h1
    have := half2 r2 s h2
    simp only [gt_iff_lt, lt_irrefl, if_false, if_pos h2] at this ⊢
    rw [this, inc_zero]; ring
  · subst h2
    have := half1 r1 s h1
    simp only [gt_iff_lt, lt_irrefl, if_false, if_pos h1] at this ⊢
    rw [this, inc_zero]; ring
  · have e1 := half1 r1 s h1
    have e2 := half2 r2 (let s := if c1 > 0 then (s.add r1 c1 v).setChanged r1 c1 else s
       if c2 > 0 then (s.add r1 c2 (-v)).setChanged r1 c2 else s) h2
    simp only [gt_iff_lt, if_pos h1, if_pos h2] at e1 e2 ⊢
    rw [e2, e1]; ring

/-! ## C01 – C04: solving -/

/-- Specification: `x` solves the `n × n` system with matrix `A` and right side `b` (indices from 1). -/
def Solves (n : ℕ) (A : ℕ → ℕ → F) (x b : ℕ → F) : Prop :=
  ∀ r, 1 ≤ r → r ≤ n → ∑ c ∈ Finset.Icc 1 n, A r c * x c = b r

/-- The loaded matrix as the user sees it. -/
def matrixOf (reqs : List (ℕ × ℕ)) (a : Arr F) : ℕ → ℕ → F := sget (iwantAll reqs) a

/-- ... with `e r` added on the diagonal (the effect of replaced pivots). -/
def withDiag (A : ℕ → ℕ → F) (e : ℕ → F) : ℕ → ℕ → F := fun r c => A r c + if r = c then e r else 0

/-- Ways to use the matrix between two solutions. -/
inductive Op (F : Type _) where
  | point (i j : ℕ) (v : F)
  | diag (i : ℕ) (v : F)
  | couple (i j : ℕ) (v : F)
  | symm (i j : ℕ) (v : F)
  | asym (r1 r2 c1 c2 : ℕ) (v : F)
  | clear (offset : F)
  | decomp (doPartial : Bool)

/-- Matrix plus solver. -/
structure Sys (F : Type _) where
  mat : Loaded F
  lu : Arr F

def step (n : ℕ) (low : ℕ → ℕ) (minp : F) : Op F → Sys F → Sys F
  | .point i j v, s => { s with mat := loadPoint i j v s.mat }
  | .diag i v, s => { s with mat := loadDiagonalPoint i v s.mat }
  | .couple i j v, s => { s with mat := loadCouple i j v s.mat }
  | .symm i j v, s => { s with mat := loadSymmetric i j v s.mat }
  | .asym r1 r2 c1 c2 v, s => { s with mat := loadAsymmetric r1 r2 c1 c2 v s.mat }
  | .clear off, s => { s with mat := clearWith n off s.mat }
  | .decomp p, s =>
    let r := luCopy n low minp p s.mat.a s.lu s.mat.changed
    { mat := { a := s.mat.a, changed := r.2 }, lu := r.1 }

def run (n : ℕ) (low : ℕ → ℕ) (minp : F) (ops : List (Op F)) (s : Sys F) : Sys F :=
  ops.foldl (fun s o => step n low minp o s) s

/-- The rule the caller has to follow (and `SIM::solve` does, see `IncMode`): positions loaded were reserved
(asserted in m_matrix.h:644-659), and a partial decomposition is only asked for when a decomposition was done since the
last clearing.  The flag says whether that is the case. -/
def Disciplined (reqs : List (ℕ × ℕ)) : Bool → List (Op F) → Prop
  | _, [] => True
  | f, .point i j _ :: t => (i ≠ 0 → j ≠ 0 → i = j ∨ Reserved reqs i j) ∧ Disciplined reqs f t
  | f, .diag _ _ :: t => Disciplined reqs f t
  | f, .couple i j _ :: t => (i ≠ 0 → j ≠ 0 → i = j ∨ Reserved reqs i j) ∧ Disciplined reqs f t
  | f, .symm i j _ :: t => (i ≠ 0 → j ≠ 0 → i = j ∨ Reserved reqs i j) ∧ Disciplined reqs f t
  | f, .asym r1 r2 c1 c2 _ :: t =>
    (∀ r ∈ [r1, r2], ∀ c ∈ [c1, c2], r ≠ 0 → c ≠ 0 → r = c ∨ Reserved reqs r c) ∧ Disciplined reqs f t
  | _, .clear _ :: t => Disciplined reqs false t
  | f, .decomp p :: t => (p = true → f = true) ∧ Disciplined reqs true t

/-- flags only ever get set by loading, and whatever changed is flagged -/
structure Ext (low : ℕ → ℕ) (s s' : Loaded F) : Prop where
  mono : ∀ k, s.changed k = true → s'.changed k = true
  marked : ∀ i j, s'.a i j ≠ s.a i j → ∃ k, low (max i j) ≤ k ∧ k ≤ max i j ∧ s'.changed k = true

theorem Ext.refl (low : ℕ → ℕ) (s : Loaded F) : Ext low s s := ⟨fun _ h => h, fun _ _ h => absurd rfl h⟩

theorem Ext.trans {low : ℕ → ℕ} {s s' s'' : Loaded F} (h : Ext low s s') (h' : Ext low s' s'') :
    Ext low s s'' := by
  refine ⟨fun k hk => h'.mono k (h.mono k hk), ?_⟩
  intro i j hij
  by_cases he : s'.a i j = s.a i j
  · exact h'.marked i j (by rw [he]; exact hij)
  · obtain ⟨k, h1, h2, h3⟩ := h.marked i j he
    exact ⟨k, h1, h2, h'.mono k h3⟩

theorem Ext.mark (low : ℕ → ℕ) (s : Loaded F) (i j : ℕ) (hj : j ≠ 0) : Ext low s (s.setChanged i j) := by
  refine ⟨?_, fun _ _ h => absurd rfl h⟩
  intro k hk
  unfold Loaded.setChanged
  simp only
  split
  · simp [hj]
  · exact hk

theorem Ext.mark1 (low : ℕ → ℕ) (s : Loaded F) (i : ℕ) : Ext low s (s.setChanged1 i) := by
  refine ⟨?_, fun _ _ h => absurd rfl h⟩
  intro k hk
  unfold Loaded.setChanged1
  simp only
  split
  · rfl
  · exact hk

/-- adding at (r,c) when row r is (or is about to be) marked -/
theorem Ext.add (low : ℕ → ℕ) (s : Loaded F) (r c : ℕ) (v : F) (hl : low (max r c) ≤ min r c)
    (hm : s.changed r = true) : Ext low s (s.add r c v) := by
  refine ⟨fun _ h => h, ?_⟩
  intro i j hij
  have : i = r ∧ j = c := by
    by_contra hne
    exact hij (by show s.a.set r c _ i j = _; rw [set_ne hne])
  obtain ⟨rfl, rfl⟩ := this
  exact ⟨i, by omega, by omega, hm⟩

theorem Ext.addMark (low : ℕ → ℕ) (s : Loaded F) (r c : ℕ) (v : F) (hl : low (max r c) ≤ min r c)
    (hc : c ≠ 0) : Ext low s ((s.add r c v).setChanged r c) := by
  refine ⟨fun k hk => (Ext.mark low s r c hc).mono k hk, ?_⟩
  intro i j hij
  have : i = r ∧ j = c := by
    by_contra hne
    exact hij (by show s.a.set r c _ i j = _; rw [set_ne hne])
  obtain ⟨rfl, rfl⟩ := this
  refine ⟨i, by omega, by omega, ?_⟩
  simp [Loaded.setChanged, hc]

theorem Ext.fresh {n : ℕ} {low : ℕ → ℕ} {minp : F} {lu : Arr F} {s s' : Loaded F} (wf : WF n low)
    (h : Ext low s s') (hf : Fresh n low minp s.a lu s.changed) : Fresh n low minp s'.a lu s'.changed := by
  intro m h1 h2 h3
  have hw := wf m h1 h2
  apply (hf m h1 h2 ?_).congr hw.2 (fun _ _ _ _ => rfl)
  · intro i j hij hmin
    by_contra hne
    obtain ⟨k, h4, h5, h6⟩ := h.marked i j hne
    rw [hij] at h4 h5
    rw [h3 k h4 h5] at h6
    exact absurd h6 (by decide)
  · intro k h4 h5
    by_contra hne
    have := h.mono k (by simpa using hne)
    rw [h3 k h4 h5] at this
    exact absurd this (by decide)

theorem reserved_profile (reqs : List (ℕ × ℕ)) (r c : ℕ) (h : r = c ∨ Reserved reqs r c) :
    iwantAll reqs (max r c) ≤ min r c := by
  rcases h with h | h
  · subst h; simpa using (iwantAll_spec reqs r).1
  · exact iwantAll_covers reqs r c h

theorem setChanged_self (s : Loaded F) (i j : ℕ) (hj : j ≠ 0) : (s.setChanged i j).changed i = true := by
  simp [Loaded.setChanged, hj]

theorem ext_loadPoint (reqs : List (ℕ × ℕ)) (i j : ℕ) (v : F) (s : Loaded F)
    (h : i ≠ 0 → j ≠ 0 → i = j ∨ Reserved reqs i j) : Ext (iwantAll reqs) s (loadPoint i j v s) := by
  unfold loadPoint
  by_cases hp : i > 0 ∧ j > 0
  · rw [if_pos hp]
    refine ((Ext.mark1 _ s j).trans (Ext.mark1 _ _ i)).trans (Ext.add _ _ _ _ _ ?_ ?_)
    · exact reserved_profile reqs i j (h (by omega) (by omega))
    · simp [Loaded.setChanged1]
  · rw [if_neg hp]; exact Ext.refl _ _

theorem ext_loadDiagonalPoint (reqs : List (ℕ × ℕ)) (i : ℕ) (v : F) (s : Loaded F) :
    Ext (iwantAll reqs) s (loadDiagonalPoint i v s) := by
  unfold loadDiagonalPoint
  by_cases hp : i > 0
  · rw [if_pos hp]
    exact (Ext.mark _ s i i (by omega)).trans
      (Ext.add _ _ _ _ _ (reserved_profile reqs i i (Or.inl rfl)) (setChanged_self _ _ _ (by omega)))
  · rw [if_neg hp]; exact Ext.refl _ _

theorem ext_loadCouple (reqs : List (ℕ × ℕ)) (i j : ℕ) (v : F) (s : Loaded F)
    (h : i ≠ 0 → j ≠ 0 → i = j ∨ Reserved reqs i j) : Ext (iwantAll reqs) s (loadCouple i j v s) := by
  unfold loadCouple
  by_cases hj : j > 0
  · rw [if_pos hj]
    by_cases hi : i > 0
    · rw [if_pos hi]
      have hr := reserved_profile reqs i j (h (by omega) (by omega))
      refine (((Ext.mark _ s i j (by omega)).trans (Ext.add _ _ _ _ _ hr ?_)).trans
        (Ext.mark _ _ j i (by omega))).trans (Ext.add _ _ _ _ _ ?_ ?_)
      · exact setChanged_self _ _ _ (by omega)
      · rw [max_comm, min_comm]; exact hr
      · exact setChanged_self _ _ _ (by omega)
    · rw [if_neg hi]; exact Ext.refl _ _
  · rw [if_neg hj]; exact Ext.refl _ _

theorem ext_loadSymmetric (reqs : List (ℕ × ℕ)) (i j : ℕ) (v : F) (s : Loaded F)
    (h : i ≠ 0 → j ≠ 0 → i = j ∨ Reserved reqs i j) : Ext (iwantAll reqs) s (loadSymmetric i j v s) := by
  unfold loadSymmetric
  by_cases hj : j > 0
  · rw [if_pos hj]
    have e1 : Ext (iwantAll reqs) s ((s.setChanged j j).add j j v) :=
      (Ext.mark _ s j j (by omega)).trans
        (Ext.add _ _ _ _ _ (reserved_profile reqs j j (Or.inl rfl)) (setChanged_self _ _ _ (by omega)))
    by_cases hi : i > 0
    · simp only [if_pos hi]
      have hr := reserved_profile reqs i j (h (by omega) (by omega))
      have hr' := hr; rw [max_comm, min_comm] at hr'
      have e2 := ((e1.trans (Ext.mark (iwantAll reqs) _ i i (by omega))).trans
        (Ext.mark (iwantAll reqs) _ i j (by omega))).trans (Ext.mark (iwantAll reqs) _ j i (by omega))
      have hjm : (((((s.setChanged j j).add j j v).setChanged i i).setChanged i j).setChanged j i).changed j = true :=
        setChanged_self _ _ _ (by omega)
      have him : (((((s.setChanged j j).add j j v).setChanged i i).setChanged i j).setChanged j i).changed i = true := by
        apply (Ext.mark (iwantAll reqs) _ j i (by omega)).mono
        exact setChanged_self _ _ _ (by omega)
      exact ((e2.trans (Ext.add _ _ i i v (reserved_profile reqs i i (Or.inl rfl)) him)).trans
        (Ext.add _ _ i j (-v) hr him)).trans (Ext.add _ _ j i (-v) hr' hjm)
    · simp only [if_neg hi]; exact e1
  · rw [if_neg hj]
    by_cases hi : i > 0
    · rw [if_pos hi]
      exact (Ext.mark _ s i i (by omega)).trans
        (Ext.add _ _ _ _ _ (reserved_profile reqs i i (Or.inl rfl)) (setChanged_self _ _ _ (by omega)))
    · rw [if_neg hi]; exact Ext.refl _ _

theorem ext_loadAsymmetric (reqs : List (ℕ × ℕ)) (r1 r2 c1 c2 : ℕ) (v : F) (s : Loaded F)
    (h : ∀ r ∈ [r1, r2], ∀ c ∈ [c1, c2], r ≠ 0 → c ≠ 0 → r = c ∨ Reserved reqs r c) :
    Ext (iwantAll reqs) s (loadAsymmetric r1 r2 c1 c2 v s) := by
  have prof : ∀ r ∈ [r1, r2], ∀ c ∈ [c1, c2], r > 0 → c > 0 → iwantAll reqs (max r c) ≤ min r c :=
    fun r hr c hc h1 h2 => reserved_profile reqs r c (h r hr c hc (by omega) (by omega))
  unfold loadAsymmetric
  simp only
  refine Ext.trans (s' := if r1 > 0 then
      if c2 > 0 then
        ((if c1 > 0 then (s.add r1 c1 v).setChanged r1 c1 else s).add r1 c2 (-v)).setChanged r1 c2
      else if c1 > 0 then (s.add r1 c1 v).setChanged r1 c1 else s
    else s) ?_ ?_
  · by_cases h1 : r1 > 0
    · simp only [if_pos h1]
      have e : Ext (iwantAll reqs) s (if c1 > 0 then (s.add r1 c1 v).setChanged r1 c1 else s) := by
        by_cases hc : c1 > 0
        · rw [if_pos hc]
          exact Ext.addMark _ _ _ _ _ (prof r1 (by simp) c1 (by simp) h1 hc) (by omega)
        · rw [if_neg hc]; exact Ext.refl _ _
      by_cases hc : c2 > 0
      · rw [if_pos hc]
        exact e.trans (Ext.addMark _ _ _ _ _ (prof r1 (by simp) c2 (by simp) h1 hc) (by omega))
      · rw [if_neg hc]; exact e
    · simp only [if_neg h1]; exact Ext.refl _ _
  · generalize (if r1 > 0 then
      if c2 > 0 then
        ((if c1 > 0 then (s.add r1 c1 v).setChanged r1 c1 else s).add r1 c2 (-v)).setChanged r1 c2
      else if c1 > 0 then (s.add r1 c1 v).setChanged r1 c1 else s
    else s) = t
    by_cases h1 : r2 > 0
    · simp only [if_pos h1]
      have e : Ext (iwantAll reqs) t (if c1 > 0 then (t.setChanged r2 c1).add r2 c1 (-v) else t) := by
        by_cases hc : c1 > 0
        · rw [if_pos hc]
          exact (Ext.mark _ t r2 c1 (by omega)).trans
            (Ext.add _ _ _ _ _ (prof r2 (by simp) c1 (by simp) h1 hc) (setChanged_self _ _ _ (by omega)))
        · rw [if_neg hc]; exact Ext.refl _ _
      by_cases hc : c2 > 0
      · rw [if_pos hc]
        exact (e.trans (Ext.mark _ _ r2 c2 (by omega))).trans
          (Ext.add _ _ _ _ _ (prof r2 (by simp) c2 (by simp) h1 hc) (setChanged_self _ _ _ (by omega)))
      · rw [if_neg hc]; exact e
    · simp only [if_neg h1]; exact Ext.refl _ _

theorem run_fresh (n : ℕ) (reqs : List (ℕ × ℕ)) (minp : F) :
    ∀ (ops : List (Op F)) (f : Bool) (p : Bool) (s : Sys F),
      (f = true → Fresh n (iwantAll reqs) minp s.mat.a s.lu s.mat.changed) →
      Disciplined reqs f (ops ++ [.decomp p]) →
      (p = true → Fresh n (iwantAll reqs) minp (run n (iwantAll reqs) minp ops s).mat.a
        (run n (iwantAll reqs) minp ops s).lu (run n (iwantAll reqs) minp ops s).mat.changed) := by
  intro ops
  induction ops with
  | nil =>
    intro f p s hf hd hp
    simp only [List.nil_append, Disciplined, and_true] at hd
    exact hf (hd hp)
  | cons o t ih =>
    intro f p s hf hd
    have hwf := iwantAll_wf n reqs
    show p = true → Fresh n (iwantAll reqs) minp (run n (iwantAll reqs) minp t (step n (iwantAll reqs) minp o s)).mat.a _ _
    cases o with
    | point i j v =>
      simp only [List.cons_append, Disciplined] at hd
      exact ih f p _ (fun h => (ext_loadPoint reqs i j v s.mat hd.1).fresh hwf (hf h)) hd.2
    | diag i v =>
      simp only [List.cons_append, Disciplined] at hd
      exact ih f p _ (fun h => (ext_loadDiagonalPoint reqs i v s.mat).fresh hwf (hf h)) hd
    | couple i j v =>
      simp only [List.cons_append, Disciplined] at hd
      exact ih f p _ (fun h => (ext_loadCouple reqs i j v s.mat hd.1).fresh hwf (hf h)) hd.2
    | symm i j v =>
      simp only [List.cons_append, Disciplined] at hd
      exact ih f p _ (fun h => (ext_loadSymmetric reqs i j v s.mat hd.1).fresh hwf (hf h)) hd.2
    | asym r1 r2 c1 c2 v =>
      simp only [List.cons_append, Disciplined] at hd
      exact ih f p _ (fun h => (ext_loadAsymmetric reqs r1 r2 c1 c2 v s.mat hd.1).fresh hwf (hf h)) hd.2
    | clear off =>
      simp only [List.cons_append, Disciplined] at hd
      exact ih false p _ (fun h => absurd h (by decide)) hd
    | decomp q =>
      simp only [List.cons_append, Disciplined] at hd
      refine ih true p _ (fun _ => ?_) hd.2
      have := luCopy_spec n (iwantAll reqs) minp q s.mat.a s.lu s.mat.changed hwf (fun hq => hf (hd.1 hq))
      intro m h1 h2 _
      exact this.1 m h1 h2

/-- The factors left by a decomposition at the end of a disciplined history satisfy the factor equations. -/
theorem run_eqAt (n : ℕ) (reqs : List (ℕ × ℕ)) (minp : F) (ops : List (Op F)) (p : Bool) (s : Sys F)
    (hd : Disciplined reqs false (ops ++ [.decomp p])) :
    let t := run n (iwantAll reqs) minp (ops ++ [.decomp p]) s
    ∀ m, 1 ≤ m → m ≤ n → EqAt (iwantAll reqs) minp t.mat.a t.lu m := by
  intro t
  have hfr := run_fresh n reqs minp ops false p s (fun h => absurd h (by decide)) hd
  have ht : t = step n (iwantAll reqs) minp (.decomp p) (run n (iwantAll reqs) minp ops s) := by
    show run n _ minp (ops ++ [.decomp p]) s = _
    rw [run, List.foldl_append]; rfl
  rw [ht]
  exact (luCopy_spec n (iwantAll reqs) minp p _ _ _ (iwantAll_wf n reqs) hfr).1

/-- C02: after any disciplined history of loads, clears and decompositions, the factors that a *partial* decomposition
leaves are, in every stored position, those that a full decomposition of the current matrix (from any previous solver
state) would leave. -/
theorem partial_eq_full (n : ℕ) (reqs : List (ℕ × ℕ)) (minp : F) (ops : List (Op F)) (s : Sys F)
    (hd : Disciplined reqs false (ops ++ [.decomp true]))
    (lu0 : Arr F) (ch0 : ℕ → Bool) (i j : ℕ) (hi : 1 ≤ i) (hin : i ≤ n) (hj : 1 ≤ j) (hjn : j ≤ n)
    (hprof : iwantAll reqs (max i j) ≤ min i j) :
    (run n (iwantAll reqs) minp (ops ++ [.decomp true]) s).lu i j =
      (luCopy n (iwantAll reqs) minp false
        (run n (iwantAll reqs) minp ops s).mat.a lu0 ch0).1 i j := by
  have h1 := run_eqAt n reqs minp ops true s hd
  have h2 := (luCopy_spec n (iwantAll reqs) minp false (run n (iwantAll reqs) minp ops s).mat.a lu0 ch0
    (iwantAll_wf n reqs) (fun h => absurd h (by decide))).1
  have hsame : (run n (iwantAll reqs) minp (ops ++ [.decomp true]) s).mat.a =
      (run n (iwantAll reqs) minp ops s).mat.a := by
    rw [run, List.foldl_append]; rfl
  simp only [hsame] at h1
  exact EqAt.unique (iwantAll_wf n reqs) h1 h2 (max i j) (by omega) i j rfl (by omega) hprof

/-- C01 (general form): after any disciplined history ending in a decomposition (full or partial), for every right side
the substitution solves the loaded system, in which the diagonal of each node whose pivot came out as zero has
`_min_pivot` added. -/
theorem solve_correct (n : ℕ) (reqs : List (ℕ × ℕ)) (minp : F) (hmin : minp ≠ 0) (ops : List (Op F)) (p : Bool)
    (s : Sys F) (hd : Disciplined reqs false (ops ++ [.decomp p])) :
    let t := run n (iwantAll reqs) minp (ops ++ [.decomp p]) s
    ∃ e : ℕ → F, (∀ k, e k = 0 ∨ e k = minp) ∧
      ∀ b v c : ℕ → F,
        Solves n (withDiag (matrixOf reqs t.mat.a) e) (fbsub n (iwantAll reqs) t.lu b) b ∧
        Solves n (withDiag (matrixOf reqs t.mat.a) e) (fbsub3 n (iwantAll reqs) t.lu v b c) b ∧
        Solves n (withDiag (matrixOf reqs t.mat.a) e) (fbsub3Alias n (iwantAll reqs) t.lu v b) b := by
  intro t
  have heq := run_eqAt n reqs minp ops p s hd
  have wf := iwantAll_wf n reqs
  have hp : ∀ m, 1 ≤ m → m ≤ n → t.lu m m ≠ 0 := by
    intro m h1 h2
    rw [(heq m h1 h2).diag]
    exact pivot_ne_zero hmin
  refine ⟨pivotFix (iwantAll reqs) minp t.mat.a t.lu, ?_, ?_⟩
  · intro k; unfold pivotFix; split
    · exact Or.inr rfl
    · exact Or.inl rfl
  · intro b v c
    have hf := fwdSub_spec n (iwantAll reqs) t.lu b wf
    have hb := backSub_spec n (iwantAll reqs) t.lu (fwdSub n (iwantAll reqs) t.lu b) wf
    have vs : ∀ (x : ℕ → F) (r : ℕ) (A : ℕ → ℕ → F),
        ∑ c ∈ Finset.Icc 1 n, A r c * vset x 0 0 c = ∑ c ∈ Finset.Icc 1 n, A r c * x c := by
      intro x r A
      apply Finset.sum_congr rfl
      intro k hk
      rw [Finset.mem_Icc] at hk
      rw [vset_ne (by omega)]
    refine ⟨?_, ?_, ?_⟩
    · intro r h1 h2
      exact solve_of_triangular n _ minp t.mat.a t.lu wf heq hp b _ _ hf.1 hb.1 r h1 h2
    · intro r h1 h2
      unfold fbsub3
      rw [vs]
      have hf3 := fwdSub3_spec n (iwantAll reqs) t.lu b c wf
      have hb3 := backSub_spec n (iwantAll reqs) t.lu (fwdSub3 n (iwantAll reqs) t.lu b c) wf
      have hcg := backSub_congr n (iwantAll reqs) t.lu wf (copyN n (fwdSub3 n (iwantAll reqs) t.lu b c) v)
        (fwdSub3 n (iwantAll reqs) t.lu b c) (by intro i h3 h4; simp [copyN, h4])
      have := solve_of_triangular n _ minp t.mat.a t.lu wf heq hp b _ _ hf3.1 hb3.1 r h1 h2
      rw [← this]
      apply Finset.sum_congr rfl
      intro k hk
      rw [Finset.mem_Icc] at hk
      rw [hcg k hk.1 hk.2]; rfl
    · intro r h1 h2
      unfold fbsub3Alias
      rw [vs]
      have hf3 := fwdSub3_spec n (iwantAll reqs) t.lu b v wf
      have hb3 := backSub_spec n (iwantAll reqs) t.lu (fwdSub3 n (iwantAll reqs) t.lu b v) wf
      exact solve_of_triangular n _ minp t.mat.a t.lu wf heq hp b _ _ hf3.1 hb3.1 r h1 h2

/-- C01 (exact form): if all leading minors of the loaded matrix are non-zero, no pivot is replaced and the
substitution solves exactly `A x = b`; the value of `_min_pivot` is irrelevant. -/
theorem solve_exact (n : ℕ) (reqs : List (ℕ × ℕ)) (minp : F) (ops : List (Op F)) (p : Bool)
    (s : Sys F) (hd : Disciplined reqs false (ops ++ [.decomp p])) :
    let t := run n (iwantAll reqs) minp (ops ++ [.decomp p]) s
    (∀ k, 1 ≤ k → k ≤ n → (leading (iwantAll reqs) t.mat.a k).det ≠ 0) →
      ∀ b v : ℕ → F, Solves n (matrixOf reqs t.mat.a) (fbsub3Alias n (iwantAll reqs) t.lu v b) b ∧
        Solves n (matrixOf reqs t.mat.a) (fbsub n (iwantAll reqs) t.lu b) b := by
  intro t hdet b v
  have heq := run_eqAt n reqs minp ops p s hd
  have wf := iwantAll_wf n reqs
  have hpv := pivots_of_minors n _ minp t.mat.a t.lu wf heq hdet
  have hp : ∀ m, 1 ≤ m → m ≤ n → t.lu m m ≠ 0 := by
    intro m h1 h2
    rw [(heq m h1 h2).diag, pivot, if_neg (hpv m h1 h2)]; exact hpv m h1 h2
  have hfix : ∀ m, 1 ≤ m → m ≤ n → pivotFix (iwantAll reqs) minp t.mat.a t.lu m = 0 := by
    intro m h1 h2; rw [pivotFix, if_neg (hpv m h1 h2)]
  have clean : ∀ (x : ℕ → F) (r : ℕ), 1 ≤ r → r ≤ n →
      ∑ c ∈ Finset.Icc 1 n, (sget (iwantAll reqs) t.mat.a r c +
        if r = c then pivotFix (iwantAll reqs) minp t.mat.a t.lu r else 0) * x c =
      ∑ c ∈ Finset.Icc 1 n, matrixOf reqs t.mat.a r c * x c := by
    intro x r h1 h2
    apply Finset.sum_congr rfl
    intro k _
    rw [hfix r h1 h2]; simp [matrixOf]
  have vs : ∀ (x : ℕ → F) (r : ℕ) (A : ℕ → ℕ → F),
      ∑ c ∈ Finset.Icc 1 n, A r c * vset x 0 0 c = ∑ c ∈ Finset.Icc 1 n, A r c * x c := by
    intro x r A
    apply Finset.sum_congr rfl
    intro k hk
    rw [Finset.mem_Icc] at hk
    rw [vset_ne (by omega)]
  constructor
  · intro r h1 h2
    unfold fbsub3Alias
    rw [vs, ← clean _ r h1 h2]
    exact solve_of_triangular n _ minp t.mat.a t.lu wf heq hp b _ _
      (fwdSub3_spec n (iwantAll reqs) t.lu b v wf).1
      (backSub_spec n (iwantAll reqs) t.lu (fwdSub3 n (iwantAll reqs) t.lu b v) wf).1 r h1 h2
  · intro r h1 h2
    rw [← clean _ r h1 h2]
    exact solve_of_triangular n _ minp t.mat.a t.lu wf heq hp b _ _
      (fwdSub_spec n (iwantAll reqs) t.lu b wf).1
      (backSub_spec n (iwantAll reqs) t.lu (fwdSub n (iwantAll reqs) t.lu b) wf).1 r h1 h2

/-- The solution vector's entry for ground is always 0 (m_matrix.h:872). -/
theorem fbsub3_ground (n : ℕ) (low : ℕ → ℕ) (lu : Arr F) (x b c : ℕ → F) :
    fbsub3 n low lu x b c 0 = 0 ∧ fbsub3Alias n low lu x b 0 = 0 := by
  constructor
  · unfold fbsub3; exact vset_eq
  · unfold fbsub3Alias; exact vset_eq

/-- C03: the transposed substitution solves the transposed system (same diagonal fix as C01), for every size from 1.
(For size 0 the code writes `v[1]`, outside a vector of `size()+1` entries; see `fbsubt_size0`.) -/
theorem fbsubt_correct (n : ℕ) (hn : 1 ≤ n) (reqs : List (ℕ × ℕ)) (minp : F) (hmin : minp ≠ 0)
    (ops : List (Op F)) (p : Bool) (s : Sys F) (hd : Disciplined reqs false (ops ++ [.decomp p])) :
    let t := run n (iwantAll reqs) minp (ops ++ [.decomp p]) s
    ∃ e : ℕ → F, (∀ k, e k = 0 ∨ e k = minp) ∧
      ∀ b : ℕ → F,
        Solves n (fun r c => withDiag (matrixOf reqs t.mat.a) e c r) (fbsubt n (iwantAll reqs) t.lu b) b ∧
        Solves n (withDiag (matrixOf reqs t.mat.a) e) (fbsub n (iwantAll reqs) t.lu b) b := by
  intro t
  have heq := run_eqAt n reqs minp ops p s hd
  have wf := iwantAll_wf n reqs
  have hp : ∀ m, 1 ≤ m → m ≤ n → t.lu m m ≠ 0 := by
    intro m h1 h2
    rw [(heq m h1 h2).diag]
    exact pivot_ne_zero hmin
  refine ⟨pivotFix (iwantAll reqs) minp t.mat.a t.lu, ?_, ?_⟩
  · intro k; unfold pivotFix; split
    · exact Or.inr rfl
    · exact Or.inl rfl
  · intro b
    constructor
    · intro r h1 h2
      exact fbsubt_solves n _ minp t.mat.a t.lu wf hn heq hp b r h1 h2
    · intro r h1 h2
      exact solve_of_triangular n _ minp t.mat.a t.lu wf heq hp b _ _
        (fwdSub_spec n (iwantAll reqs) t.lu b wf).1
        (backSub_spec n (iwantAll reqs) t.lu (fwdSub n (iwantAll reqs) t.lu b) wf).1 r h1 h2

/-- C03, the excluded point: with size 0 `fbsubt` still changes element 1 of the vector, which the vector
(size()+1 = 1 element) does not have. -/
theorem fbsubt_size0 : ∃ (lu : Arr ℚ) (v : ℕ → ℚ), fbsubt 0 lowInit lu v 1 ≠ v 1 :=
  ⟨fun _ _ => 2, fun _ => 1, by
    have : fbsubt 0 lowInit (fun _ _ => (2 : ℚ)) (fun _ => 1) 1 = 1 / 2 := rfl
    rw [this]; norm_num⟩

/-- C04: the in-place solver (AC) leaves in the matrix, in every stored position, exactly the numbers that the copying
solver (DC, transient) would leave in its separate factor array, whatever that held before. -/
theorem inplace_eq_copy (n : ℕ) (reqs : List (ℕ × ℕ)) (minp : F) (a lu0 : Arr F) (ch0 : ℕ → Bool)
    (i j : ℕ) (hi : 1 ≤ i) (hin : i ≤ n) (hj : 1 ≤ j) (hjn : j ≤ n)
    (hprof : iwantAll reqs (max i j) ≤ min i j) :
    luInplace n (iwantAll reqs) minp a i j = (luCopy n (iwantAll reqs) minp false a lu0 ch0).1 i j := by
  have h1 := luInplace_spec n (iwantAll reqs) minp a (iwantAll_wf n reqs)
  have h2 := (luCopy_spec n (iwantAll reqs) minp false a lu0 ch0
    (iwantAll_wf n reqs) (fun h => absurd h (by decide))).1
  exact EqAt.unique (iwantAll_wf n reqs) h1 h2 (max i j) (by omega) i j rfl (by omega) hprof

/-- C04 for the user: the AC solution solves the loaded complex system. -/
theorem inplace_solve (n : ℕ) (reqs : List (ℕ × ℕ)) (minp : F) (a : Arr F)
    (hdet : ∀ k, 1 ≤ k → k ≤ n → (leading (iwantAll reqs) a k).det ≠ 0) (b : ℕ → F) :
    Solves n (matrixOf reqs a) (fbsub n (iwantAll reqs) (luInplace n (iwantAll reqs) minp a) b) b := by
  have wf := iwantAll_wf n reqs
  have heq := luInplace_spec n (iwantAll reqs) minp a wf
  set lu := luInplace n (iwantAll reqs) minp a
  have hpv := pivots_of_minors n _ minp a lu wf heq hdet
  have hp : ∀ m, 1 ≤ m → m ≤ n → lu m m ≠ 0 := by
    intro m h1 h2
    rw [(heq m h1 h2).diag, pivot, if_neg (hpv m h1 h2)]; exact hpv m h1 h2
  intro r h1 h2
  have := solve_of_triangular n _ minp a lu wf heq hp b _ _
      (fwdSub_spec n (iwantAll reqs) lu b wf).1
      (backSub_spec n (iwantAll reqs) lu (fwdSub n (iwantAll reqs) lu b) wf).1 r h1 h2
  rw [← this]
  apply Finset.sum_congr rfl
  intro k _
  rw [pivotFix, if_neg (hpv r h1 h2)]; simp [matrixOf, fbsub]

/-! ### The hypotheses are met by a real use -/

/-- a resistor divider with a controlled source, solved, updated through an asymmetric load and re-solved partially -/
def demoOps : List (Op ℚ) :=
  [.clear (1/1000), .symm 1 2 3, .symm 2 0 2, .symm 1 0 1, .asym 3 0 1 2 5, .diag 3 4, .decomp false,
   .asym 1 0 3 0 7, .symm 2 3 2]

def demoReqs : List (ℕ × ℕ) := [(1, 2), (3, 1), (3, 2)]

example : Disciplined demoReqs false (demoOps ++ [.decomp true]) := by
  simp [demoOps, Disciplined, demoReqs, Reserved]

example : (iwantAll demoReqs) (max 1 3) ≤ min 1 3 := by decide

/-- a two node ladder meets the hypothesis of `solve_exact` -/
example :
    let t := run 2 (iwantAll [(1, 2)]) (0 : ℚ)
      ([.clear 0, .symm 1 2 3, .symm 2 0 2, .symm 1 0 1] ++ [.decomp false]) ⟨⟨fun _ _ => 7, fun _ => false⟩, fun _ _ => 9⟩
    ∀ k, 1 ≤ k → k ≤ 2 → (leading (iwantAll [(1, 2)]) t.mat.a k).det ≠ 0 := by
  intro t k h1 h2
  have e11 : sget (iwantAll [(1, 2)]) t.mat.a 1 1 = 4 := by decide +kernel
  have e12 : sget (iwantAll [(1, 2)]) t.mat.a 1 2 = -3 := by decide +kernel
  have e21 : sget (iwantAll [(1, 2)]) t.mat.a 2 1 = -3 := by decide +kernel
  have e22 : sget (iwantAll [(1, 2)]) t.mat.a 2 2 = 5 := by decide +kernel
  interval_cases k
  · simp [leading, e11]
  · rw [Matrix.det_fin_two]; simp [leading, e11, e12, e21, e22]; norm_num

end Gnucap.Mat
