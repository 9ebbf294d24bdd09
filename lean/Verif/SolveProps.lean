import Verif.SolveModel
import Mathlib.Tactic.NormNum
import Mathlib.Algebra.Order.Floor.Ring
import Mathlib.Tactic.Linarith

/-! # Properties of the Newton loop (C10) and of gmin stepping (C11) -/
namespace Gnucap.Solve

/-- Specification: iterations `a ≤ i < b` all reported convergence without limiting. -/
def Confirmed (o : ℕ → Bool × Bool) (a b : ℕ) : Prop := ∀ i, a ≤ i → i < b → o i = (true, false)

theorem solveLoop_spec (itermin itl : ℤ) (o : ℕ → Bool × Bool) :
    ∀ (iter cc : ℕ), cc ≤ iter → Confirmed o (iter - cc) iter →
      let r := solveLoop itermin itl o iter cc
      iter < r.2 ∧ ((r.2 : ℤ) ≤ max ((iter : ℤ) + 1) (itl + 1)) ∧
      (r.1 = true → 0 ≤ itermin → ∃ a, a ≤ r.2 ∧ itermin + 1 ≤ ((r.2 - a : ℕ) : ℤ) ∧ Confirmed o a r.2) ∧
      (r.1 = true → (o (r.2 - 1)).1 = true) ∧
      (r.1 = false → itl < r.2) := by
  intro iter cc
  induction iter, cc using solveLoop.induct itermin itl o with
  | case1 iter cc cc' conv h ih =>
    intro hle hconf
    have heq : solveLoop itermin itl o iter cc = solveLoop itermin itl o (iter + 1) cc' := by
      rw [solveLoop]; exact dif_pos h
    rw [heq]
    have hc : Confirmed o (iter + 1 - cc') (iter + 1) := by
      intro i h1 h2
      by_cases he : i = iter
      · subst he
        by_cases h3 : (o i).1 = true
        · by_cases h4 : (o i).2 = true
          · have : cc' = 0 := by simp [cc', h3, h4]
            omega
          · exact Prod.ext h3 (by simpa using h4)
        · have : cc' = 0 := by simp [cc', h3]
          omega
      · by_cases h3 : (o iter).1 = true
        · by_cases h4 : (o iter).2 = true
          · have : cc' = 0 := by simp [cc', h3, h4]
            omega
          · have : cc' = cc + 1 := by simp [cc', h3, h4]
            exact hconf i (by omega) (by omega)
        · have : cc' = 0 := by simp [cc', h3]
          omega
    have hcc : cc' ≤ iter + 1 := by
      show (if (o iter).1 then (if (o iter).2 then 0 else cc + 1) else 0) ≤ iter + 1
      split
      · split <;> omega
      · omega
    obtain ⟨i1, i2, i3, i4, i5⟩ := ih hcc hc
    refine ⟨by omega, ?_, i3, i4, i5⟩
    have := h.2
    push_cast at i2 this ⊢
    have h1 : (iter : ℤ) + 1 ≤ itl := by omega
    have h2 : (iter : ℤ) + 1 + 1 ≤ itl + 1 := by omega
    rw [max_eq_right h2] at i2
    exact le_trans i2 (le_max_right _ _)
  | case2 iter cc cc' conv h =>
    intro hle hconf
    have heq : solveLoop itermin itl o iter cc = (conv, iter + 1) := by
      rw [solveLoop]; exact dif_neg h
    rw [heq]
    have hconv : conv = (if (cc' : ℤ) ≤ itermin then false else (o iter).1) := rfl
    refine ⟨by simp, by push_cast; exact le_max_left _ _, ?_, ?_, ?_⟩
    · intro hr hpos
      change conv = true at hr
      rw [hconv] at hr
      by_cases hle2 : (cc' : ℤ) ≤ itermin
      · rw [if_pos hle2] at hr; exact absurd hr (by decide)
      · rw [if_neg hle2] at hr
        have h4 : (o iter).2 = false := by
          by_contra hne
          have : cc' = 0 := by simp [cc', hr, hne]
          omega
        have hcc : cc' = cc + 1 := by simp [cc', hr, h4]
        refine ⟨iter - cc, by simp; omega, ?_, ?_⟩
        · simp only; push_cast; omega
        · intro i h1 h2
          by_cases he : i = iter
          · subst he; exact Prod.ext hr h4
          · exact hconf i h1 (by simp at h2; omega)
    · intro hr
      change conv = true at hr
      rw [hconv] at hr
      by_cases hle2 : (cc' : ℤ) ≤ itermin
      · rw [if_pos hle2] at hr; exact absurd hr (by decide)
      · rw [if_neg hle2] at hr; simpa using hr
    · intro hr
      change conv = false at hr
      simp only [hr, true_and, not_not] at h
      simpa using h

/-- C10: `SIM::solve` reports success only if the last `itermin+1` iterations all reported convergence without limiting. -/
theorem solve_success_confirmed (itermin itl : ℤ) (hm : 0 ≤ itermin) (o : ℕ → Bool × Bool)
    (h : (solve itermin itl o).1 = true) :
    ∃ a, itermin + 1 ≤ (((solve itermin itl o).2 - a : ℕ) : ℤ) ∧ Confirmed o a (solve itermin itl o).2 := by
  obtain ⟨_, _, h3, _, _⟩ := solveLoop_spec itermin itl o 0 0 (le_refl _) (fun i _ h2 => absurd h2 (by omega))
  obtain ⟨a, _, h5, h6⟩ := h3 h hm
  exact ⟨a, h5, h6⟩

/-- C10: it does at least one and at most `itl+1` iterations, and reports failure only after more than `itl`. -/
theorem solve_bounded (itermin itl : ℤ) (o : ℕ → Bool × Bool) :
    1 ≤ (solve itermin itl o).2 ∧ (((solve itermin itl o).2 : ℕ) : ℤ) ≤ max 1 (itl + 1) ∧
    ((solve itermin itl o).1 = false → itl < (solve itermin itl o).2) := by
  obtain ⟨h1, h2, _, _, h5⟩ := solveLoop_spec itermin itl o 0 0 (le_refl _) (fun i _ h2 => absurd h2 (by omega))
  exact ⟨by unfold solve; omega, by unfold solve; simpa using h2, h5⟩

/-- C10, the excluded options: with a negative `itermin` a limited (not yet valid) iteration is reported as a success. -/
theorem negative_itermin_accepts_limiting : solve (-1) 100 (fun _ => (true, true)) = (true, 1) := by
  unfold solve
  rw [solveLoop]
  simp

example : (solve 1 100 (fun i => (decide (3 ≤ i), decide (i = 4)))).1 = true ∧
    (solve 1 100 (fun i => (decide (3 ≤ i), decide (i = 4)))).2 = 7 := by
  have : solve 1 100 (fun i => (decide (3 ≤ i), decide (i = 4))) = (true, 7) := by
    unfold solve
    iterate 7 (rw [solveLoop]; simp)
  rw [this]; simp

/-! ## C11 -/

variable {F : Type _} [Field F] [LinearOrder F]

theorem homotopyLoop_spec (sol : ℕ → F → ℤ → Option (Bool × ℕ)) (sstep : ℤ) (sg : F) (si : ℤ) :
    ∀ (k ps : ℕ) (g : F) (calls : List (F × ℤ)), calls.length = k →
      let r := homotopyLoop sol sstep sg si k ps g calls
      (∃ mid, r.calls = calls ++ mid ∧ mid ≠ [] ∧ ((mid.length : ℤ) ≤ max 0 (sstep - ps) + 1)) ∧
      (∀ b, r.result = some b → r.gmin = sg ∧ r.itermin = si ∧ r.calls.getLast? = some (sg, si) ∧
        (sol (r.calls.length - 1) sg si).map Prod.fst = some b) := by
  intro k ps g calls
  induction k, ps, g, calls using homotopyLoop.induct sol sstep sg with
  | case1 k ps g calls h hs =>
    intro hl
    rw [homotopyLoop, dif_pos h, hs]
    refine ⟨⟨[(g, 0)], rfl, by simp, ?_⟩, fun b hb => absurd hb (by simp)⟩
    have : (0 : ℤ) ≤ max 0 (sstep - ps) := le_max_left _ _
    simp only [List.length_singleton]; push_cast; omega
  | case2 k ps g calls h conv its hs ih =>
    intro hl
    rw [homotopyLoop, dif_pos h, hs]
    simp only [dite_eq_ite] at ih ⊢
    obtain ⟨⟨mid, h1, h2, h3⟩, h4⟩ := ih (by simp [hl])
    refine ⟨⟨(g, 0) :: mid, ?_, by simp, ?_⟩, h4⟩
    · rw [h1]; simp
    · have := h.1
      simp only [List.length_cons]
      push_cast at h3 ⊢
      omega
  | case3 k ps g calls h =>
    intro hl
    rw [homotopyLoop, dif_neg h]
    refine ⟨⟨[(sg, si)], rfl, by simp, ?_⟩, ?_⟩
    · have : (0 : ℤ) ≤ max 0 (sstep - ps) := le_max_left _ _
      simp only [List.length_singleton]; push_cast; omega
    · intro b hb
      refine ⟨rfl, rfl, by simp, ?_⟩
      simp only [List.length_append, List.length_singleton, hl, Nat.add_sub_cancel]
      exact hb

/-- C11 (part): whenever `solve_with_homotopy` returns, the user's `gmin` and `itermin` are back in force; the first call of
`solve` was made under them; and so was the last one, whose answer is the one returned.
Missing from the full claim: an exception inside (`homotopy_throw_leaves_options`), and the matrix of the last solve still
containing the homotopy's gmin (`Load.final_solve_keeps_homotopy_gmin`). -/
theorem homotopy_restores_partial (sol : ℕ → F → ℤ → Option (Bool × ℕ)) (sstep : ℤ) (ps : ℕ) (g : F) (im : ℤ) (b : Bool)
    (h : (solveWithHomotopy sol sstep ps g im).result = some b) :
    let r := solveWithHomotopy sol sstep ps g im
    r.gmin = g ∧ r.itermin = im ∧ r.calls.head? = some (g, im) ∧ r.calls.getLast? = some (g, im) ∧
    (sol (r.calls.length - 1) g im).map Prod.fst = some b := by
  intro r
  have hr : r = solveWithHomotopy sol sstep ps g im := rfl
  unfold solveWithHomotopy at h hr
  cases hs : sol 0 g im with
  | none => rw [hs] at h; exact absurd h (by simp)
  | some p =>
    obtain ⟨conv, its⟩ := p
    rw [hs] at h hr
    simp only at h hr
    split at h
    · rename_i hc
      rw [if_pos hc] at hr
      obtain ⟨⟨mid, h1, h2, _⟩, h4⟩ := homotopyLoop_spec sol sstep g im 1 (ps + (its + 1)) 1 [(g, im)] rfl
      obtain ⟨h5, h6, h7, h8⟩ := h4 b h
      rw [hr]
      exact ⟨h5, h6, by rw [h1]; simp, h7, h8⟩
    · rename_i hc
      rw [if_neg hc] at hr
      rw [hr]
      simp only [Option.some.injEq] at h
      subst h
      simp [hs]

/-- C11: it always ends: at most `itl6 - (iterations already printed)` solves besides the first and the last. -/
theorem homotopy_bounded (sol : ℕ → F → ℤ → Option (Bool × ℕ)) (sstep : ℤ) (ps : ℕ) (g : F) (im : ℤ) :
    (((solveWithHomotopy sol sstep ps g im).calls.length : ℕ) : ℤ) ≤ max 0 (sstep - ps) + 2 := by
  unfold solveWithHomotopy
  have h0 : (0 : ℤ) ≤ max 0 (sstep - ps) := le_max_left _ _
  cases hs : sol 0 g im with
  | none => simp only [List.length_singleton]; push_cast; omega
  | some p =>
    obtain ⟨conv, its⟩ := p
    simp only
    split
    · obtain ⟨⟨mid, h1, _, h3⟩, _⟩ := homotopyLoop_spec sol sstep g im 1 (ps + (its + 1)) 1 [(g, im)] rfl
      rw [h1]
      simp only [List.length_append, List.length_singleton]
      push_cast at h3 ⊢
      omega
    · simp only [List.length_singleton]; push_cast; omega

/-- C11 is false when something throws inside the stepping (e.g. e_logicnode.cc:120 during device evaluation): the options
stay at the homotopy's values. -/
theorem homotopy_throw_leaves_options :
    ∃ sol : ℕ → ℚ → ℤ → Option (Bool × ℕ),
      let r := solveWithHomotopy sol 5000 0 (1 / 10^12) 1
      r.result = none ∧ r.gmin = 1 ∧ r.itermin = 0 := by
  refine ⟨fun k _ _ => if k = 0 then some (false, 100) else none, ?_⟩
  simp only [solveWithHomotopy]
  norm_num
  rw [homotopyLoop]
  norm_num

example : ∃ b, (solveWithHomotopy (fun k (_ : ℚ) _ => some (decide (2 ≤ k), 9)) 5000 0 (1 / 4) 1).result = some b := by
  refine ⟨true, ?_⟩
  simp only [solveWithHomotopy]
  norm_num
  iterate 5 (try (rw [homotopyLoop]; norm_num))

end Gnucap.Solve
