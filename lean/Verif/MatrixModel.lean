import Mathlib.Algebra.Field.Basic
import Mathlib.Algebra.BigOperators.Intervals
import Verif.Util

/-!
# Model of gnucap's bump-and-spike matrix and its LU solvers

Source: `include/m_matrix.h`, `include/m_matrix_solver.h`.

Simplifications common to the whole file
* `double`/`std::complex<double>` are elements of an arbitrary field; the longer accumulator type of the dot
  product (`m_matrix_solver.h:233-244`) is the same field.
* the storage block is a two-dimensional array indexed by (row, column); that every access really goes to its own
  cell of the block is the subject of `MatrixStorage.lean`.
* node numbers are natural numbers; negative ("invalid") node numbers are represented by 0, which every function
  treats in the same way as ground (tests are `> 0` / `<= 0`).
-/
namespace Gnucap.Mat

/-- Contents of the storage block, by row and column. -/
abbrev Arr (F : Type _) := ℕ → ℕ → F

section
variable {F : Type _}

/-- assignment `m(r,c) = v` -/
def Arr.set (a : Arr F) (r c : ℕ) (v : F) : Arr F :=
  fun i j => if i = r ∧ j = c then v else a i j

/-- assignment `v[i] = x` to a vector -/
def vset (v : ℕ → F) (i : ℕ) (x : F) : ℕ → F := fun j => if j = i then x else v j

end

/-! ## Structure (`init`, `iwant`) -/

/-- `BSMATRIX_DATA::init` (m_matrix.h:374-391): `_lownode[ii] = ii`. -/
def lowInit : ℕ → ℕ := fun i => i

/-- `BSMATRIX_DATA::iwant` (m_matrix.h:465-480). -/
def iwant (low : ℕ → ℕ) (node1 node2 : ℕ) : ℕ → ℕ :=
  if node1 = 0 ∨ node2 = 0 then low
  else if node1 < low node2 then fun k => if k = node2 then node1 else low k
  else if node2 < low node1 then fun k => if k = node1 then node2 else low k
  else low

/-- A sequence of `iwant` calls, starting from `init`. -/
def iwantAll (reqs : List (ℕ × ℕ)) : ℕ → ℕ :=
  reqs.foldl (fun low p => iwant low p.1 p.2) lowInit

variable {F : Type _} [Field F] [DecidableEq F]

/-! ## Reading and loading -/

/-- `BSMATRIX_DATA::s` (m_matrix.h:674-704) for row, column ≥ 1: outside the profile it is the shared zero. -/
def sget (low : ℕ → ℕ) (a : Arr F) (row col : ℕ) : F :=
  if col = row then a row row
  else if row < col then (if row < low col then 0 else a row col)
  else (if col < low row then 0 else a row col)

/-- Matrix data plus the `_changed` flags of `LU_COPY` (m_matrix_solver.h:33). -/
structure Loaded (F : Type _) where
  a : Arr F
  changed : ℕ → Bool

/-- `m(r,c) += v` -/
def Loaded.add (s : Loaded F) (r c : ℕ) (v : F) : Loaded F :=
  { s with a := s.a.set r c (s.a r c + v) }

/-- `set_changed(i, j)` (m_matrix_solver.h:80-82).  The second argument is a `bool`; the load functions pass a node
number there, so the flag becomes "node number is not zero". -/
def Loaded.setChanged (s : Loaded F) (i : ℕ) (j : ℕ) : Loaded F :=
  { s with changed := fun k => if k = i then decide (j ≠ 0) else s.changed k }

/-- `set_changed(i)` with the default second argument `true`. -/
def Loaded.setChanged1 (s : Loaded F) (i : ℕ) : Loaded F :=
  { s with changed := fun k => if k = i then true else s.changed k }

/-- `load_point` (m_matrix.h:707-717). -/
def loadPoint (i j : ℕ) (v : F) (s : Loaded F) : Loaded F :=
  if i > 0 ∧ j > 0 then ((s.setChanged1 j).setChanged1 i).add i j v else s

/-- `load_diagonal_point` (m_matrix.h:721-728). -/
def loadDiagonalPoint (i : ℕ) (v : F) (s : Loaded F) : Loaded F :=
  if i > 0 then (s.setChanged i i).add i i v else s

/-- `load_couple` (m_matrix.h:733-745). -/
def loadCouple (i j : ℕ) (v : F) (s : Loaded F) : Loaded F :=
  if j > 0 then
    if i > 0 then (((s.setChanged i j).add i j (-v)).setChanged j i).add j i (-v) else s
  else s

/-- `load_symmetric` (m_matrix.h:752-771). -/
def loadSymmetric (i j : ℕ) (v : F) (s : Loaded F) : Loaded F :=
  if j > 0 then
    let s := (s.setChanged j j).add j j v
    if i > 0 then
      ((((((s.setChanged i i).setChanged i j).setChanged j i).add i i v).add i j (-v)).add j i (-v))
    else s
  else if i > 0 then (s.setChanged i i).add i i v
  else s

/-- `load_asymmetric` (m_matrix.h:778-806). Note that only the *row* is marked. -/
def loadAsymmetric (r1 r2 c1 c2 : ℕ) (v : F) (s : Loaded F) : Loaded F :=
  let s :=
    if r1 > 0 then
      let s := if c1 > 0 then (s.add r1 c1 v).setChanged r1 c1 else s
      if c2 > 0 then (s.add r1 c2 (-v)).setChanged r1 c2 else s
    else s
  if r2 > 0 then
    let s := if c1 > 0 then (s.setChanged r2 c1).add r2 c1 (-v) else s
    if c2 > 0 then (s.setChanged r2 c2).add r2 c2 v else s
  else s

/-- `zero` (m_matrix.h:560-566) followed by `dezero(offset)` (m_matrix.h:571-576), as called by
`SIM::clear_arrays` (s__solve.cc:206-209).  Neither touches the changed flags. -/
def clearWith (n : ℕ) (offset : F) (s : Loaded F) : Loaded F :=
  { s with a := fun r c => if r = c ∧ 1 ≤ r ∧ r ≤ n then 0 + offset else 0 }

/-! ## LU decomposition -/

/-- The accumulation loop of `subtract_dot_product` (m_matrix_solver.h:260-262 and 280-282):
`row[-ii]` is `l(rr,kk+ii)`, `col[ii]` is `u(kk+ii,cc)`. -/
def dotLoop (lu : Arr F) (rr cc kk : ℕ) : ℕ → F
  | 0 => 0
  | len + 1 => dotLoop lu rr cc kk len + lu rr (kk + len) * lu (kk + len) cc

/-- `dot` of `subtract_dot_product` (m_matrix_solver.h:250-266, 272-284): `kk = max(low rr, low cc)`,
`len = dd - kk`, nothing is added when `len <= 0`. -/
def dot (low : ℕ → ℕ) (lu : Arr F) (rr cc dd : ℕ) : F :=
  dotLoop lu rr cc (max (low rr) (low cc)) (dd - max (low rr) (low cc))

/-- The pivot test of m_matrix_solver.h:213-217 and 221-224: a zero pivot is replaced by `_min_pivot`. -/
def pivot (minp x : F) : F := if x = 0 then minp else x

/-- Body of the loop of `LU_COPY::lu_decomp` for one `mm` (m_matrix_solver.h:199-225), reading `aa`, writing `lu`. -/
def copyStep (low : ℕ → ℕ) (minp : F) (aa : Arr F) (mm : ℕ) (lu : Arr F) : Arr F :=
  let bn := low mm
  if bn < mm then
    let lu := lu.set bn mm (aa bn mm / lu bn bn)
    let lu := forRange (bn + 1) mm
      (fun ii (lu : Arr F) => lu.set ii mm ((aa ii mm - dot low lu ii mm ii) / lu ii ii)) lu
    let lu := lu.set mm bn (aa mm bn)
    let lu := forRange (bn + 1) mm
      (fun jj (lu : Arr F) => lu.set mm jj (aa mm jj - dot low lu mm jj jj)) lu
    lu.set mm mm (pivot minp (aa mm mm - dot low lu mm mm mm))
  else
    lu.set mm mm (pivot minp (aa mm mm))

/-- State of `LU_COPY::lu_decomp`'s loop. -/
structure LuState (F : Type _) where
  lu : Arr F
  changed : ℕ → Bool
  prop : ℕ

/-- One iteration of `LU_COPY::lu_decomp` (m_matrix_solver.h:193-228). -/
def luStep (doPartial : Bool) (low : ℕ → ℕ) (minp : F) (aa : Arr F) (mm : ℕ) (s : LuState F) : LuState F :=
  if !doPartial || s.changed mm || decide (low mm ≤ s.prop) then
    { lu := copyStep low minp aa mm s.lu
      changed := fun k => if k = mm then false else s.changed k
      prop := mm }
  else s

/-- `LU_COPY::lu_decomp(do_partial)` (m_matrix_solver.h:188-229): new factors and new changed flags. -/
def luCopy (n : ℕ) (low : ℕ → ℕ) (minp : F) (doPartial : Bool) (aa : Arr F) (lu : Arr F)
    (changed : ℕ → Bool) : Arr F × (ℕ → Bool) :=
  let r := forRange 1 (n + 1) (luStep doPartial low minp aa) ⟨lu, changed, 0⟩
  (r.lu, r.changed)

/-- Body of the loop of `LU_INPLACE::lu_decomp` for one `mm` (m_matrix_solver.h:296-320); `acx` is overwritten. -/
def inplaceStep (low : ℕ → ℕ) (minp : F) (mm : ℕ) (acx : Arr F) : Arr F :=
  let bn := low mm
  if bn < mm then
    let acx := acx.set bn mm (acx bn mm / acx bn bn)
    let acx := forRange (bn + 1) mm
      (fun ii (acx : Arr F) => acx.set ii mm ((acx ii mm - dot low acx ii mm ii) / acx ii ii)) acx
    let acx := forRange (bn + 1) mm
      (fun jj (acx : Arr F) => acx.set mm jj (acx mm jj - dot low acx mm jj jj)) acx
    acx.set mm mm (pivot minp (acx mm mm - dot low acx mm mm mm))
  else
    acx.set mm mm (pivot minp (acx mm mm))

/-- `LU_INPLACE::lu_decomp` (m_matrix_solver.h:291-322). -/
def luInplace (n : ℕ) (low : ℕ → ℕ) (minp : F) (acx : Arr F) : Arr F :=
  forRange 1 (n + 1) (inplaceStep low minp) acx

/-! ## Substitution -/

/-- Forward part of `fbsub(T* v)` (m_matrix.h:817-822). -/
def fwdSub (n : ℕ) (low : ℕ → ℕ) (lu : Arr F) (v : ℕ → F) : ℕ → F :=
  forRange 1 (n + 1) (fun ii v =>
    let v := forRange (low ii) ii (fun jj v => vset v ii (v ii - lu ii jj * v jj)) v
    vset v ii (v ii / lu ii ii)) v

/-- Backward part of both `fbsub`s (m_matrix.h:824-828 and 867-871). -/
def backSub (n : ℕ) (low : ℕ → ℕ) (lu : Arr F) (v : ℕ → F) : ℕ → F :=
  forDownTo2 (fun jj v =>
    forRange (low jj) jj (fun ii v => vset v ii (v ii - lu ii jj * v jj)) v) n v

/-- `fbsub(T* v)` (m_matrix.h:812-829). -/
def fbsub (n : ℕ) (low : ℕ → ℕ) (lu : Arr F) (v : ℕ → F) : ℕ → F :=
  backSub n low lu (fwdSub n low lu v)

/-- The scan for the first non-zero of `b`, clearing `c` on the way (m_matrix.h:845-852).
`k` is the number of rows still to look at, the row being looked at is `n + 1 - k`.  Returns `first_nz` and `c`. -/
def skipZeros (n : ℕ) (b : ℕ → F) : (k : ℕ) → (c : ℕ → F) → ℕ × (ℕ → F)
  | 0, c => (n + 1, c)
  | k + 1, c =>
    if b (n + 1 - (k + 1)) ≠ 0 then (n + 1 - (k + 1), c)
    else skipZeros n b k (vset c (n + 1 - (k + 1)) 0)

/-- Forward part of `fbsub(x,b,c)` (m_matrix.h:844-863) acting on the intermediate vector `c`. -/
def fwdSub3 (n : ℕ) (low : ℕ → ℕ) (lu : Arr F) (b c : ℕ → F) : ℕ → F :=
  let fz := skipZeros n b n c
  forRange fz.1 (n + 1) (fun ii c =>
    let c := vset c ii (b ii)
    let c := forRange (max (low ii) fz.1) ii (fun jj c => vset c ii (c ii - lu ii jj * c jj)) c
    vset c ii (c ii / lu ii ii)) fz.2

/-- `notstd::copy_n(c, size()+1, x)` (m_matrix.h:865). -/
def copyN (n : ℕ) (c x : ℕ → F) : ℕ → F := fun i => if i ≤ n then c i else x i

/-- `fbsub(x, b, c)` with `c` distinct from `x` (m_matrix.h:837-875); the result is `x`.
With `x` and `c` the same array, as in `SIM::solve_equations` (s__solve.cc:281), the copy is from the array to
itself: see `fbsub3Alias`. -/
def fbsub3 (n : ℕ) (low : ℕ → ℕ) (lu : Arr F) (x b c : ℕ → F) : ℕ → F :=
  vset (backSub n low lu (copyN n (fwdSub3 n low lu b c) x)) 0 0

/-- `fbsub(x, b, x)`: intermediate and solution vector share storage (the call in s__solve.cc:281). -/
def fbsub3Alias (n : ℕ) (low : ℕ → ℕ) (lu : Arr F) (x b : ℕ → F) : ℕ → F :=
  vset (backSub n low lu (fwdSub3 n low lu b x)) 0 0

/-- `fbsubt` (m_matrix.h:886-906). -/
def fbsubt (n : ℕ) (low : ℕ → ℕ) (lu : Arr F) (v : ℕ → F) : ℕ → F :=
  let v := forRange 1 (n + 1) (fun ii v =>
    forRange (low ii) ii (fun jj v => vset v ii (v ii - lu jj ii * v jj)) v) v
  let v := forDownTo2 (fun jj v =>
    let v := vset v jj (v jj / lu jj jj)
    forRange (low jj) jj (fun ii v => vset v ii (v ii - lu jj ii * v jj)) v) n v
  vset v 1 (v 1 / lu 1 1)

end Gnucap.Mat
