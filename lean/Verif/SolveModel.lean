import Mathlib.Algebra.Order.Field.Basic
import Mathlib.Algebra.Order.Field.Rat

/-!
# The Newton loop and the gmin stepping around it (model)
-/
namespace Gnucap.Solve

/-- `SIM::solve` from the `do` on (s__solve.cc:53-94), reduced to its control: `o i` is what iteration `i` (from 0) finds:
whether the device evaluation reported convergence (s__solve.cc:66, 223-236) and whether limiting was active (`_limiting`).
`iter` is `_iter[iSTEP]` before the iteration, `cc` is `convergedcount`.  Damping, loading and solving
(s__solve.cc:84-90) do not influence the control flow.  Returns the answer and the number of iterations done. -/
def solveLoop (itermin itl : ℤ) (o : ℕ → Bool × Bool) (iter cc : ℕ) : Bool × ℕ :=
  let cc' := if (o iter).1 then (if (o iter).2 then 0 else cc + 1) else 0
  let conv := if (cc' : ℤ) ≤ itermin then false else (o iter).1
  if h : conv = false ∧ ¬ ((iter + 1 : ℕ) : ℤ) > itl then solveLoop itermin itl o (iter + 1) cc'
  else (conv, iter + 1)
termination_by (itl + 1 - iter).toNat
decreasing_by omega

/-- `SIM::solve` (s__solve.cc:42-94) -/
def solve (itermin itl : ℤ) (o : ℕ → Bool × Bool) : Bool × ℕ := solveLoop itermin itl o 0 0

/-- What `solve_with_homotopy` leaves behind. -/
structure Homotopy (F : Type _) where
  result : Option Bool          -- none: an exception left the function
  gmin : F                      -- OPT::gmin afterwards
  itermin : ℤ                   -- OPT::itermin afterwards
  calls : List (F × ℤ)          -- gmin and itermin in force at each call of solve, in order

/-- The loop of `solve_with_homotopy` (s__solve.cc:105-116) and what follows it (117-128).
`sol k g im` is the outcome of the k-th call of `solve` when made under gmin `g` and itermin `im`: none if it throws,
otherwise the answer and the number of iterations minus one.  `ps` is `_iter[iPRINTSTEP]`. -/
def homotopyLoop {F : Type _} [Field F] [LinearOrder F] (sol : ℕ → F → ℤ → Option (Bool × ℕ))
    (sstep : ℤ) (saveG : F) (saveI : ℤ) (k : ℕ) (ps : ℕ) (g : F) (calls : List (F × ℤ)) : Homotopy F :=
  if _h : (ps : ℤ) < sstep ∧ saveG < g then
    match sol k g 0 with
    | none => { result := none, gmin := g, itermin := 0, calls := calls ++ [(g, 0)] }
    | some (conv, its) =>
      homotopyLoop sol sstep saveG saveI (k + 1) (ps + (its + 1)) (if conv = false then g * (7/2) else g / 4)
        (calls ++ [(g, 0)])
  else
    { result := (sol k saveG saveI).map Prod.fst, gmin := saveG, itermin := saveI, calls := calls ++ [(saveG, saveI)] }
termination_by (sstep - ps).toNat
decreasing_by omega

/-- `SIM::solve_with_homotopy` (s__solve.cc:96-129) -/
def solveWithHomotopy {F : Type _} [Field F] [LinearOrder F] (sol : ℕ → F → ℤ → Option (Bool × ℕ))
    (sstep : ℤ) (ps : ℕ) (g : F) (im : ℤ) : Homotopy F :=
  match sol 0 g im with
  | none => { result := none, gmin := g, itermin := im, calls := [(g, im)] }
  | some (conv, its) =>
    if conv = false ∧ sstep > 0 then
      homotopyLoop sol sstep g im 1 (ps + (its + 1)) 1 [(g, im)]
    else { result := some conv, gmin := g, itermin := im, calls := [(g, im)] }

end Gnucap.Solve
