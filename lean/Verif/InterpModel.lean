import Verif.IntegModel
import Verif.LoadModel

/-!
# Table interpolation, WAVE, PWL source (model)

Exact arithmetic.  A table is a list of pairs.  `NOT_INPUT` for an end slope is `none`.
-/
namespace Gnucap.Interp
open Gnucap.Integ (FPoly)

variable {F : Type _} [Field F] [LinearOrder F]

/-- How a call ends: a value, an exception, or undefined behaviour. -/
inductive Out (α : Type _) where
  | ok (a : α)
  | throw
  | ub
deriving DecidableEq

/-- The precondition of `std::upper_bound`: no entry above `x` precedes one that is not. -/
def partitioned (x : F) (l : List (F × F)) : Bool := (l.dropWhile (fun p => decide (p.1 ≤ x))).all (fun p => decide (x < p.1))

/-- `std::upper_bound(begin, end, DPAIR(x,BIGBIG))` as an index: number of leading entries not above `x`.  Pairs are compared
lexicographically; values are taken to be at most BIGBIG, so only the first components matter. -/
def upperBound (x : F) (l : List (F × F)) : ℕ := (l.takeWhile (fun p => decide (p.1 ≤ x))).length

/-- `interpolate` (m_interp.h:33-87); `begin`, `end` after `++begin`, `--end` are index 1 and the last index -/
def interpolate (t : List (F × F)) (x : F) (below above : Option F) : Out (FPoly F) :=
  match t with
  | [] => .throw                                                   -- 38-41
  | [p] =>                                                         -- 43-47
    let f1 := if x < p.1 then below.getD 0 else above.getD 0
    .ok ⟨x, p.2 + (x - p.1) * f1, f1⟩
  | _ :: p1 :: r =>
    let range := (p1 :: r).dropLast
    if !partitioned x range then .ub
    else
      let k := upperBound x range                                  -- upper is entry k+1, lower entry k
      match t[k + 1]?, t[k]? with
      | some upper, some lower =>
        match (if k = range.length ∧ upper.1 < x then above else none) with
        | some f1 => .ok ⟨x, upper.2 + (x - upper.1) * f1, f1⟩     -- 61-67: lower = upper
        | none =>
          match (if k = 0 ∧ x < lower.1 then below else none) with
          | some f1 => .ok ⟨x, lower.2 + (x - lower.1) * f1, f1⟩   -- 68-73
          | none =>
            if upper.1 ≤ lower.1 then .throw                       -- 74-76
            else
              let f1 := (upper.2 - lower.2) / (upper.1 - lower.1)  -- 77-81
              .ok ⟨x, lower.2 + (x - lower.1) * f1, f1⟩
      | _, _ => .ub

/-! ## WAVE (m_wave.h) -/

/-- `class WAVE` (m_wave.h:29-52) -/
structure Wave (F : Type _) where
  w : List (F × F)
  delay : F

/-- `WAVE::push` (m_wave.h:59-63) -/
def Wave.push (t v : F) (s : Wave F) : Wave F := { s with w := s.w ++ [(t + s.delay, v)] }

/-- `WAVE::initialize` (m_wave.h:67-71) -/
def Wave.initialize (s : Wave F) : Wave F := { s with w := [] }

/-- `WAVE::v_out` (m_wave.h:97-100) -/
def Wave.vOut (t : F) (s : Wave F) : Out (FPoly F) := interpolate s.w t (some 0) (some 0)

/-- `WAVE::v_reflect` (m_wave.h:107-111) -/
def Wave.vReflect (tol t vTotal : F) (s : Wave F) : Out F :=
  match s.vOut t with
  | .ok p => .ok (Gnucap.Load.dnDiff tol (vTotal * 2) p.f0)
  | .throw => .throw
  | .ub => .ub

/-- `DEV_TRANSLINE::tr_begin` on one of its two waves (d_trln.cc:399-400) -/
def Wave.lineBegin (td : F) (s : Wave F) : Wave F := (s.initialize.push (0 - td) 0).push 0 0

/-! ## PWL source (bm_pwl.cc) -/

/-- The loop of `EVAL_BM_PWL::precalc_last` (bm_pwl.cc:122-134): appends the given table to what is there; `none`: out of order.
`last = -BIGBIG` at first is `none`. -/
def precalcLoop : List (F × F) → Option F → List (F × F) → Option (List (F × F))
  | [], _, num => some num
  | p :: raw, last, num =>
    match last with
    | some l => if p.1 < l then none else precalcLoop raw (some p.1) (num ++ [p])
    | none => precalcLoop raw (some p.1) (num ++ [p])

/-- `EVAL_BM_PWL::precalc_last`: the table it had before is kept (the copy made for each analysis, e_compon.cc:590-593, starts
with the old `_num_table`, bm_pwl.cc:76) -/
def precalcLast (raw num : List (F × F)) : Option (List (F × F)) := precalcLoop raw none num

/-- `EVAL_BM_PWL::tr_eval` (bm_pwl.cc:137-143), `x` already shifted by `ioffset`; `tr_final_adjust` is not modelled -/
def pwlEval (isSource : Bool) (num : List (F × F)) (x : F) : Out (FPoly F) :=
  interpolate num x (if isSource then some 0 else none) (if isSource then some 0 else none)

/-- `EVAL_BM_PWL::tr_review` (bm_pwl.cc:145-177) for a source: the announced event (`none`: no event).  `upper - 1` at the
beginning of the table is out of the array. -/
def pwlReview (num : List (F × F)) (time dtmin : F) : Out (Option F) :=
  let x := time + dtmin * 2
  if !partitioned x num then .ub
  else
    let k := upperBound x num
    if k = 0 then .ub
    else .ok (num[k]?.map (·.1))

end Gnucap.Interp
