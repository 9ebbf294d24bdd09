import Verif.ScanModel

/-!
# Reading logical lines from a file (model of `getlines`, ap_construct.cc:227-270)

A file is the list of the characters not yet read; `ungetc` after `fgetc` is leaving the character in the list.
-/
namespace Gnucap.Lines
open Gnucap.Scan (isSpace isGraph)

/-- `trim` (l_trim.cc:30-37) -/
def trim (l : List Char) : List Char := (l.reverse.dropWhile (fun c => !isGraph c)).reverse

/-- `fgets` with room for `n` characters: up to and including a newline; what it delivers and what is left -/
def fgets : ℕ → List Char → List Char × List Char
  | 0, t => ([], t)
  | _ + 1, [] => ([], [])
  | n + 1, c :: t => if c = '\n' then ([c], t) else (c :: (fgets n t).1, (fgets n t).2)

theorem fgets_rest (n : ℕ) (t : List Char) : (fgets n t).2.length ≤ t.length := by
  induction n generalizing t with
  | zero => simp [fgets]
  | succ n ih =>
    cases t with
    | nil => simp [fgets]
    | cons c t =>
      simp only [fgets]
      split
      · simp
      · have := ih t; simp; omega

theorem fgets_less (n : ℕ) (c : Char) (t : List Char) : (fgets (n + 1) (c :: t)).2.length < (c :: t).length := by
  simp only [fgets]
  split
  · simp
  · have := fgets_rest n t; simp; omega

/-- `getlines` (ap_construct.cc:227-270): `s` so far, text left; `none`: end of input.  `fgets` has room for `n + 1` characters
(`BIGBUFLEN - 1 = 4095`, md.h:72). -/
def getlinesFrom (n : ℕ) (s t : List Char) : Option (List Char × List Char) :=
  match t with
  | [] => if s = [] then none else some (s, [])
  | c :: t' =>
    let r := fgets (n + 1) (c :: t')
    let b := trim r.1
    if b.getLast? = some '\\' then getlinesFrom n (s ++ b.dropLast ++ [' ']) r.2
    else if h : (r.2.dropWhile isSpace).head? = some '+' then getlinesFrom n (s ++ b ++ [' ']) (r.2.dropWhile isSpace).tail
    else some (s ++ b ++ [' '], r.2.dropWhile isSpace)
termination_by t.length
decreasing_by
  · exact fgets_less n c t'
  · have h1 := fgets_less n c t'
    have h2 := (List.dropWhile_sublist isSpace (l := (fgets (n + 1) (c :: t')).2)).length_le
    simp only [List.length_tail]
    simp at h1 ⊢
    omega

def getlines (n : ℕ) (t : List Char) : Option (List Char × List Char) := getlinesFrom n [] t

end Gnucap.Lines
