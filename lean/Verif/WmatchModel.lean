/-!
# Wildcard matching (model of l_wmatch.cc)

Strings are lists of characters other than NUL.
-/
namespace Gnucap.Wmatch

/-- `fix_case` (l_wmatch.cc:34-37) -/
def fixCase (ci : Bool) (c : Char) : Char := if ci then c.toLower else c

/-- `wmatch_by_ptr(s2, s1)` (l_wmatch.cc:39-60); `wmatch(s,p)` is `wmatch_by_ptr(s,p)` (62-65) -/
def wmatch (ci : Bool) : List Char → List Char → Bool
  | [], [] => true
  | [], _ :: _ => false
  | _ :: _, [] => false
  | c :: s, p :: q =>
    if fixCase ci c = fixCase ci p then wmatch ci s q
    else if p = '?' then wmatch ci s q
    else if p = '*' then
      if wmatch ci s (p :: q) then true
      else if wmatch ci (c :: s) q then true
      else wmatch ci s q
    else false
termination_by s p => s.length + p.length

end Gnucap.Wmatch
