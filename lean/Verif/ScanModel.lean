import Mathlib.Data.Rat.Defs
import Mathlib.Algebra.Order.Field.Rat

/-!
# The command scanner (model of `class CS`: ap.h, ap_skip.cc, ap_match.cc, ap_convert.cc)

The text from the cursor on is a list of characters (none of them NUL); the end of the text reads as NUL (`peek` at the length,
ap.h:82).  Moving the cursor back is returning to an earlier suffix.
-/
namespace Gnucap.Scan

/-- `isgraph` in the C locale -/
def isGraph (c : Char) : Bool := 33 ≤ c.toNat && c.toNat ≤ 126
/-- `isspace` in the C locale -/
def isSpace (c : Char) : Bool := c.toNat == 32 || (9 ≤ c.toNat && c.toNat ≤ 13)

/-- `CS::skipbl` (ap_skip.cc:35-41) -/
def skipbl : List Char → List Char
  | [] => []
  | c :: r => if isGraph c then c :: r else skipbl r

/-- `CS::is_term` with the default set (ap.h:120-121) -/
def isTermChar (c : Char) : Bool := isSpace c || c == ',' || c == '=' || c == '(' || c == ')' || c == '{' || c == '}' || c == ';'

def isTerm : List Char → Bool
  | [] => true
  | c :: _ => isTermChar c

/-- `CS::skip1b(',')` = `skipcom` (ap_skip.cc:46-52, ap.h:158) -/
def skipcom (s : List Char) : List Char :=
  match skipbl s with
  | ',' :: r => skipbl r
  | r => r

/-- characters compared as in ap_match.cc:55-60 -/
def eqc (ci : Bool) (a b : Char) : Bool := a == b || (ci && a.toLower == b.toLower)

/-- the result of a match: matched (with the text that follows), not matched, or reading past the end of the pattern -/
inductive Res where
  | ok (rest : List Char)
  | fail
  | ub
deriving DecidableEq, Repr

/-- the text after the first bar, as found by `strchr`, unless that bar is escaped (ap_match.cc:67-69); `prev` is the character
before -/
def afterBar (prev : Char) : List Char → Option (List Char)
  | [] => none
  | c :: r => if c = '|' then (if prev = '\\' then none else some r) else afterBar c r

theorem afterBar_length (prev : Char) (p q : List Char) (h : afterBar prev p = some q) : q.length < p.length := by
  induction p generalizing prev with
  | nil => cases h
  | cons c r ih =>
    unfold afterBar at h
    split at h
    · split at h
      · cases h
      · cases h; simp
    · have := ih c h; simp; omega

/-- the loop of `CS::umatch` (ap_match.cc:38-76): pattern, `optional`, text at `start`, text at the cursor -/
def umatchGo (ci : Bool) (pat : List Char) (opt : Bool) (start inp : List Char) : Res :=
  match pat with
  | [] => .ok inp                                                          -- 39
  | p :: q =>
    if p = '|' then .ok inp                                                -- 39
    else if p = '\\' ∧ q ≠ [] ∧ inp.head? = q.head? then umatchGo ci q.tail opt start inp.tail   -- 42-44
    else if opt = false ∧ p = '{' then umatchGo ci q true start inp        -- 45-47
    else if opt = true ∧ p = '}' then umatchGo ci q false start inp        -- 48-50
    else if p = ' ' ∧ isTerm inp = true then umatchGo ci q opt start (skipbl inp)  -- 51-54
    else if inp ≠ [] ∧ eqc ci (inp.headD ' ') p = true then umatchGo ci q opt start inp.tail    -- 55-60
    else if opt = true then                                                -- 61-64
      if '}' ∈ q then umatchGo ci (q.dropWhile (· ≠ '}')) opt start inp else .ub
    else
      match h : afterBar p q with                                     -- 65-74
      | some q' => umatchGo ci q' opt start start
      | none => .fail
termination_by pat.length
decreasing_by
  all_goals simp_wf
  all_goals first
    | omega
    | (have := (List.dropWhile_sublist (fun x => decide (x ≠ '}')) (l := q)).length_le; simp at this; omega)
    | (have := afterBar_length _ _ _ h; omega)

/-- `CS::umatch` (ap_match.cc:30-87) -/
def umatch (ci : Bool) (pat start : List Char) : Res :=
  match umatchGo ci pat false start (skipbl start) with
  | .ok r => .ok (skipcom r)
  | x => x

end Gnucap.Scan
