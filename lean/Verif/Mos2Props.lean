import Verif.Mos2Model
import Verif.Mos6Props
import Mathlib.Analysis.SpecialFunctions.Pow.Deriv
import Mathlib.Analysis.SpecialFunctions.Sqrt

/-!
# Mosfet, level 2 (C97)
-/
set_option linter.unusedSimpArgs false
namespace Gnucap.Mos

/-! ## Specification -/

/-- share of the bulk charge that a junction whose bulk is at `v` takes from the gate -/
noncomputable def P2.taken (p : P2) (v : ℝ) : ℝ :=
  p.xj / (2 * p.leff) * (Real.sqrt (1 + 2 * p.xd / p.xj * Real.sqrt (p.tphi - v)) - 1)

/-- body effect left to the gate -/
noncomputable def P2.G (p : P2) (vds vbs : ℝ) : ℝ :=
  if p.short then p.gamma * (1 - p.taken vbs - p.taken (vbs - vds)) else p.gamma

/-- gate voltage without bulk charge; a narrow channel adds `eta1` of the surface potential -/
noncomputable def P2.T (p : P2) (vbs : ℝ) : ℝ := p.vbi + p.eta1 * (p.tphi - vbs)

/-- charge in the channel integrated from the source to where it is at `v`; `u` drives it, `f` is the surface potential at the source -/
noncomputable def drift (u g e f v : ℝ) : ℝ :=
  (u - e / 2 * v) * v - 2 / 3 * g * ((f + v) * Real.sqrt (f + v) - f * Real.sqrt f)

/-- charge at `v` -/
noncomputable def charge (u g e f v : ℝ) : ℝ := u - e * v - g * Real.sqrt (f + v)

/-- where no charge is left -/
noncomputable def vend (u g e f : ℝ) : ℝ := ((Real.sqrt (g ^ 2 + 4 * e * (u + e * f)) - g) / (2 * e)) ^ 2 - f

/-- length left of the channel, over its length: below `l` it falls more slowly and never to zero -/
noncomputable def pinch (l a : ℝ) : ℝ := if a < l then l ^ 2 / (2 * l - a) else a

/-- length left at drain voltage `d`, before that -/
noncomputable def P2.left (p : P2) (d v : ℝ) : ℝ :=
  match p.lambda with
  | some l => 1 - l * d
  | none => 1 - p.xd / p.leff * Real.sqrt ((d - v) / 4 + Real.sqrt (1 + ((d - v) / 4) ^ 2))

/-- mobility over that at no field -/
noncomputable def P2.move (p : P2) (x : ℝ) : ℝ :=
  match p.uexp with
  | some e => if p.vbp < x then (p.vbp / x) ^ e else 1
  | none => 1

/-- the channel driven by `u` -/
noncomputable def P2.K (p : P2) (u vds vbs : ℝ) : ℝ :=
  let v := vend u (p.G vds vbs) (p.eta1 + 1) (p.tphi - vbs)
  p.beta * drift u (p.G vds vbs) (p.eta1 + 1) (p.tphi - vbs) (min vds v) / pinch (p.xwb / p.leff) (p.left vds v)

/-- charge of the bulk, over that of the gate -/
noncomputable def P2.Q (p : P2) (vds vbs : ℝ) : ℝ := p.G vds vbs * Real.sqrt (p.tphi - vbs)

/-- emission factor below threshold: what the bulk and the surface states take -/
noncomputable def P2.N (p : P2) (vds vbs : ℝ) : ℝ := 1 + p.cfsox + p.eta1 - deriv (p.Q vds) vbs

/-- current without velocity saturation -/
noncomputable def P2.I (p : P2) (vgs vds vbs : ℝ) : ℝ :=
  let u := vgs - p.T vbs
  let q := p.Q vds vbs
  if p.sub then
    let n := p.vt * p.N vds vbs
    if u < q + n then p.K (q + n) vds vbs * Real.exp ((u - q - n) / n) else p.K u vds vbs * p.move (u - q - n)
  else if u < q then 0 else p.K u vds vbs * p.move (u - q)

/-- a device that can be: surface potential, length, depth positive; bulk not forward of source and drain -/
structure P2.Ok (p : P2) (vds vbs : ℝ) : Prop where
  phi : 0 < p.tphi
  len : 0 < p.leff
  eta : 0 < p.eta1 + 1
  xwb : 0 < p.xwb
  xd : 0 ≤ p.xd
  xj : p.short = true → 0 < p.xj
  vbp : p.uexp = none ∨ 0 < p.vbp
  bulk : vbs ≤ 0
  drain : 0 ≤ vds

/-! ## Calculus -/

/-- two functions that meet, smoothly, make one -/
theorem glue {f g h : ℝ → ℝ} {c t : ℝ} (hf : HasDerivAt f c t) (hg : HasDerivAt g c t) (e : f t = g t)
    (hh : ∀ x, h x = f x ∨ h x = g x) : HasDerivAt h c t := by
  have ht : h t = f t := by rcases hh t with h1 | h1 <;> simp [h1, e]
  have h1 : HasDerivWithinAt h c {x | h x = f x} t := (hf.hasDerivWithinAt).congr (fun x hx => hx) ht
  have h2 : HasDerivWithinAt h c {x | h x = f x}ᶜ t :=
    (hg.hasDerivWithinAt).congr (fun x hx => (hh x).resolve_left hx) (by rw [ht, e])
  have := h1.union h2
  rw [Set.union_compl_self] at this
  exact hasDerivWithinAt_univ.1 this

theorem cube_path {f : ℝ → ℝ} {f' t : ℝ} (hf : HasDerivAt f f' t) (h : 0 < f t) :
    HasDerivAt (fun x => f x * Real.sqrt (f x)) (3 / 2 * Real.sqrt (f t) * f') t := by
  have h1 := hf.mul (hf.sqrt h.ne')
  refine h1.congr_deriv ?_
  have hs : 0 < Real.sqrt (f t) := Real.sqrt_pos.2 h
  have e : f t = Real.sqrt (f t) * Real.sqrt (f t) := (Real.mul_self_sqrt h.le).symm
  generalize hq : Real.sqrt (f t) = q at *
  rw [e]
  field_simp
  ring

/-- the integral of the charge along a path -/
theorem drift_path {u g f v : ℝ → ℝ} {u' g' f' v' t e : ℝ} (hu : HasDerivAt u u' t) (hg : HasDerivAt g g' t) (hf : HasDerivAt f f' t)
    (hv : HasDerivAt v v' t) (h0 : 0 < f t) (h1 : 0 < f t + v t) :
    HasDerivAt (fun x => drift (u x) (g x) e (f x) (v x))
      (v t * u' - 2 / 3 * ((f t + v t) * Real.sqrt (f t + v t) - f t * Real.sqrt (f t)) * g' -
        g t * (Real.sqrt (f t + v t) - Real.sqrt (f t)) * f' + charge (u t) (g t) e (f t) (v t) * v') t := by
  have hc := (cube_path (hf.add hv) h1).sub (cube_path hf h0)
  have h := ((hu.sub (hv.const_mul (e / 2))).mul hv).sub ((hg.const_mul (2 / 3)).mul hc)
  refine h.congr_deriv ?_
  unfold charge
  simp only [Pi.add_apply, Pi.sub_apply, Pi.mul_apply]
  ring

theorem inner_pos {u g e f : ℝ} (he : 0 < e) (h : 0 < u + e * f) : 0 < g ^ 2 + 4 * e * (u + e * f) := by positivity

theorem vend_root {u g e f : ℝ} (he : 0 < e) (h : 0 < u + e * f) :
    Real.sqrt (f + vend u g e f) = (Real.sqrt (g ^ 2 + 4 * e * (u + e * f)) - g) / (2 * e) ∧ 0 < f + vend u g e f := by
  have hi := inner_pos (g := g) he h
  have hlt : g < Real.sqrt (g ^ 2 + 4 * e * (u + e * f)) := by
    refine (le_abs_self g).trans_lt ?_
    rw [← Real.sqrt_sq_eq_abs]
    exact Real.sqrt_lt_sqrt (by positivity) (by have : 0 < 4 * e * (u + e * f) := by positivity
                                                linarith)
  have hw : 0 < (Real.sqrt (g ^ 2 + 4 * e * (u + e * f)) - g) / (2 * e) := div_pos (by linarith) (by linarith)
  have e1 : f + vend u g e f = ((Real.sqrt (g ^ 2 + 4 * e * (u + e * f)) - g) / (2 * e)) ^ 2 := by unfold vend; ring
  rw [e1]
  exact ⟨Real.sqrt_sq hw.le, by positivity⟩

/-- no charge is left at the end -/
theorem vend_charge {u g e f : ℝ} (he : 0 < e) (h : 0 < u + e * f) : charge u g e f (vend u g e f) = 0 := by
  obtain ⟨h1, _⟩ := vend_root (g := g) he h
  have hi := inner_pos (g := g) he h
  unfold charge
  rw [h1]
  unfold vend
  have hs := Real.sq_sqrt hi.le
  generalize Real.sqrt (g ^ 2 + 4 * e * (u + e * f)) = R at *
  field_simp
  nlinarith

theorem charge_anti {u g e f v w : ℝ} (he : 0 < e) (hg : 0 ≤ g) (h : v < w) : charge u g e f w < charge u g e f v := by
  unfold charge
  have : g * Real.sqrt (f + v) ≤ g * Real.sqrt (f + w) := mul_le_mul_of_nonneg_left (Real.sqrt_le_sqrt (by linarith)) hg
  have h2 : e * v < e * w := by nlinarith
  linarith

/-- and nowhere else -/
theorem vend_unique {u g e f v : ℝ} (he : 0 < e) (hg : 0 ≤ g) (h : 0 < u + e * f) (hv : charge u g e f v = 0) : v = vend u g e f := by
  rcases lt_trichotomy v (vend u g e f) with hl | hl | hl
  · have := charge_anti (u := u) (f := f) he hg hl; rw [hv, vend_charge he h] at this; exact absurd this (lt_irrefl _)
  · exact hl
  · have := charge_anti (u := u) (f := f) he hg hl; rw [hv, vend_charge he h] at this; exact absurd this (lt_irrefl _)

theorem vend_nonneg {u g e f : ℝ} (he : 0 < e) (hg : 0 ≤ g) (h : 0 < u + e * f) (hu : g * Real.sqrt f ≤ u) : 0 ≤ vend u g e f := by
  by_contra hc
  have := charge_anti (u := u) (f := f) he hg (not_le.1 hc)
  rw [vend_charge he h] at this
  unfold charge at this
  simp only [mul_zero, sub_zero, add_zero] at this
  linarith

theorem vend_path {u g f : ℝ → ℝ} {u' g' f' t e : ℝ} (hu : HasDerivAt u u' t) (hg : HasDerivAt g g' t) (hf : HasDerivAt f f' t)
    (he : 0 < e) (h : 0 < u t + e * f t) :
    let R := Real.sqrt (g t ^ 2 + 4 * e * (u t + e * f t))
    HasDerivAt (fun x => vend (u x) (g x) e (f x))
      ((R - g t) / (e * R) * u' - (R - g t) ^ 2 / (2 * e ^ 2 * R) * g' - g t / R * f') t := by
  intro R
  have hi := inner_pos (g := g t) he h
  have hR : 0 < R := Real.sqrt_pos.2 hi
  have h1 : HasDerivAt (fun x => Real.sqrt (g x ^ 2 + 4 * e * (u x + e * f x))) _ t :=
    (((hg.pow 2).add ((hu.add (hf.const_mul e)).const_mul (4 * e)))).sqrt hi.ne'
  have h2 := (((h1.sub hg).div_const (2 * e)).pow 2).sub hf
  refine h2.congr_deriv ?_
  simp only [Pi.add_apply, Pi.sub_apply, Pi.mul_apply, Pi.pow_apply]
  have hs : R ^ 2 = g t ^ 2 + 4 * e * (u t + e * f t) := Real.sq_sqrt hi.le
  change _ = _
  have hRR : Real.sqrt (g t ^ 2 + 4 * e * (u t + e * f t)) = R := rfl
  simp only [hRR]
  generalize R = r at *
  push_cast
  field_simp
  ring

/-- the channel up to where the charge ends, along a path -/
theorem channel_path {u g f d : ℝ → ℝ} {u' g' f' d' t e : ℝ} (hu : HasDerivAt u u' t) (hg : HasDerivAt g g' t) (hf : HasDerivAt f f' t)
    (hd : HasDerivAt d d' t) (he : 0 < e) (h : 0 < u t + e * f t) (h0 : 0 < f t) (h1 : 0 < f t + d t) :
    let z := min (d t) (vend (u t) (g t) e (f t))
    HasDerivAt (fun x => drift (u x) (g x) e (f x) (min (d x) (vend (u x) (g x) e (f x))))
      (z * u' - 2 / 3 * ((f t + z) * Real.sqrt (f t + z) - f t * Real.sqrt (f t)) * g' -
        g t * (Real.sqrt (f t + z) - Real.sqrt (f t)) * f' + charge (u t) (g t) e (f t) z * d') t := by
  intro z
  have hV := vend_path hu hg hf he h
  simp only at hV
  have A := drift_path (e := e) hu hg hf hd h0 h1
  have B := drift_path (e := e) hu hg hf hV h0 (vend_root he h).2
  rw [vend_charge he h, zero_mul, add_zero] at B
  rcases lt_trichotomy (d t) (vend (u t) (g t) e (f t)) with hl | hl | hl
  · have hz : z = d t := min_eq_left hl.le
    rw [hz]
    refine A.congr_of_eventuallyEq ?_
    filter_upwards [(hV.continuousAt.sub hd.continuousAt).eventually_const_lt (show 0 < vend (u t) (g t) e (f t) - d t by linarith)] with x hx
    have hx' : 0 < vend (u x) (g x) e (f x) - d x := hx
    rw [min_eq_left (by linarith)]
  · have hz : z = d t := min_eq_left hl.le
    rw [hz]
    refine glue A (B.congr_deriv ?_) ?_ ?_
    · rw [hl, vend_charge he h, zero_mul, add_zero]
    · rw [hl]
    · intro x
      rcases min_choice (d x) (vend (u x) (g x) e (f x)) with hm | hm
      · left; rw [hm]
      · right; rw [hm]
  · have hz : z = vend (u t) (g t) e (f t) := min_eq_right hl.le
    rw [hz, vend_charge he h, zero_mul, add_zero]
    refine B.congr_of_eventuallyEq ?_
    filter_upwards [(hd.continuousAt.sub hV.continuousAt).eventually_const_lt (show 0 < d t - vend (u t) (g t) e (f t) by linarith)] with x hx
    have hx' : 0 < d x - vend (u x) (g x) e (f x) := hx
    rw [min_eq_right (by linarith)]

theorem pinch_pos {l a : ℝ} (hl : 0 < l) : 0 < pinch l a := by
  unfold pinch
  split
  · exact div_pos (by positivity) (by linarith)
  · linarith

theorem pinch_deriv (l a : ℝ) (hl : 0 < l) : HasDerivAt (pinch l) (if a < l then (l / (2 * l - a)) ^ 2 else 1) a := by
  have H : a ≤ l → HasDerivAt (fun x => l ^ 2 / (2 * l - x)) ((l / (2 * l - a)) ^ 2) a := by
    intro h
    have h1 := (hasDerivAt_const a (l ^ 2)).div ((hasDerivAt_id a).const_sub (2 * l)) (show 2 * l - id a ≠ 0 by simp; linarith)
    refine h1.congr_deriv ?_
    simp only [id]
    have : 2 * l - a ≠ 0 := by linarith
    field_simp
    ring
  rcases lt_trichotomy a l with h | h | h
  · rw [if_pos h]
    refine (H h.le).congr_of_eventuallyEq ?_
    filter_upwards [Iio_mem_nhds h] with x hx
    unfold pinch
    rw [if_pos (show x < l from hx)]
  · rw [if_neg (by linarith)]
    refine glue (g := fun x => x) ((H h.le).congr_deriv ?_) (hasDerivAt_id a) ?_ ?_
    · rw [h]
      have : l ≠ 0 := hl.ne'
      rw [show 2 * l - l = l by ring, div_self this]; ring
    · rw [h, show 2 * l - l = l by ring]
      field_simp
    · intro x
      unfold pinch
      split
      · left; rfl
      · right; rfl
  · rw [if_neg (by linarith)]
    refine (hasDerivAt_id a).congr_of_eventuallyEq ?_
    filter_upwards [Ioi_mem_nhds h] with x hx
    unfold pinch
    rw [if_neg (not_lt.2 (le_of_lt hx))]
    rfl

/-- what shortening takes, along a path -/
theorem layer_path {q : ℝ → ℝ} {q' t : ℝ} (hq : HasDerivAt q q' t) :
    0 < q t + Real.sqrt (1 + q t ^ 2) ∧ 0 < Real.sqrt (1 + q t ^ 2) ∧
    HasDerivAt (fun x => Real.sqrt (q x + Real.sqrt (1 + q x ^ 2)))
      (Real.sqrt (q t + Real.sqrt (1 + q t ^ 2)) / (2 * Real.sqrt (1 + q t ^ 2)) * q') t := by
  have hs : 0 < 1 + q t ^ 2 := by positivity
  have hr : 0 < Real.sqrt (1 + q t ^ 2) := Real.sqrt_pos.2 hs
  have hlt : |q t| < Real.sqrt (1 + q t ^ 2) := by
    rw [← Real.sqrt_sq_eq_abs]
    exact Real.sqrt_lt_sqrt (by positivity) (by linarith)
  have hp : 0 < q t + Real.sqrt (1 + q t ^ 2) := by
    have := neg_abs_le (q t); linarith
  refine ⟨hp, hr, ?_⟩
  have h1 : HasDerivAt (fun x => q x + Real.sqrt (1 + q x ^ 2)) _ t := hq.add (((hq.pow 2).const_add 1).sqrt hs.ne')
  refine (h1.sqrt hp.ne').congr_deriv ?_
  have hS : Real.sqrt (q t + Real.sqrt (1 + q t ^ 2)) * Real.sqrt (q t + Real.sqrt (1 + q t ^ 2)) = q t + Real.sqrt (1 + q t ^ 2) :=
    Real.mul_self_sqrt hp.le
  have hSp : 0 < Real.sqrt (q t + Real.sqrt (1 + q t ^ 2)) := Real.sqrt_pos.2 hp
  simp only [Pi.pow_apply]
  generalize Real.sqrt (q t + Real.sqrt (1 + q t ^ 2)) = W at *
  generalize Real.sqrt (1 + q t ^ 2) = r at *
  push_cast
  field_simp
  linear_combination (-q') * hS

/-! ## Bulk -/

theorem arg_back (p : P2) (v : ℝ) (h : v ≤ 0) :
    p.arg v = ⟨Real.sqrt (p.tphi - v), -(1 / 2) / Real.sqrt (p.tphi - v), 1 / 2 * (-(1 / 2) / Real.sqrt (p.tphi - v)) / (p.tphi - v)⟩ := by
  unfold P2.arg; rw [if_pos h]

theorem bulk_s (p : P2) {vds vbs : ℝ} (h : p.Ok vds vbs) :
    (p.bulk vds vbs).s.r = Real.sqrt (p.tphi - vbs) ∧ (p.bulk vds vbs).s.d = -(1 / 2) / Real.sqrt (p.tphi - vbs) ∧
    (p.bulk vds vbs).s.dd = 1 / 2 * (-(1 / 2) / Real.sqrt (p.tphi - vbs)) / (p.tphi - vbs) ∧
    (p.bulk vds vbs).b.r = Real.sqrt (p.tphi - vbs + vds) := by
  unfold P2.bulk
  rw [arg_back p vbs h.bulk, arg_back p (vbs - vds) (by have := h.bulk; have := h.drain; linarith)]
  refine ⟨rfl, rfl, rfl, ?_⟩
  rw [show p.tphi - (vbs - vds) = p.tphi - vbs + vds by ring]

theorem root_path (p : P2) {b : ℝ → ℝ} {b' t : ℝ} (hb : HasDerivAt b b' t) (h : 0 < p.tphi - b t) :
    HasDerivAt (fun x => Real.sqrt (p.tphi - b x)) (-(1 / 2) / Real.sqrt (p.tphi - b t) * b') t := by
  refine ((hb.const_sub p.tphi).sqrt h.ne').congr_deriv ?_
  have := Real.sqrt_pos.2 h
  field_simp

theorem taken_path (p : P2) (hx : 0 < p.xj) (hl : 0 < p.leff) (hd : 0 ≤ p.xd) {b : ℝ → ℝ} {b' t : ℝ} (hb : HasDerivAt b b' t)
    (h : 0 < p.tphi - b t) :
    HasDerivAt (fun x => p.taken (b x)) (-p.xd / (4 * p.leff * Real.sqrt (1 + 2 * Real.sqrt (p.tphi - b t) * p.xd / p.xj) *
      Real.sqrt (p.tphi - b t)) * b') t := by
  have hr := Real.sqrt_pos.2 h
  have hp : 0 < 1 + 2 * p.xd / p.xj * Real.sqrt (p.tphi - b t) := by positivity
  have h1 := (((((root_path p hb h).const_mul (2 * p.xd / p.xj)).const_add 1).sqrt hp.ne').sub_const 1).const_mul (p.xj / (2 * p.leff))
  refine h1.congr_deriv ?_
  rw [show 1 + 2 * Real.sqrt (p.tphi - b t) * p.xd / p.xj = 1 + 2 * p.xd / p.xj * Real.sqrt (p.tphi - b t) by ring]
  have hS := Real.sqrt_pos.2 hp
  generalize Real.sqrt (1 + 2 * p.xd / p.xj * Real.sqrt (p.tphi - b t)) = S at *
  field_simp
  ring

theorem gam_eq (p : P2) {vds vbs : ℝ} (h : p.Ok vds vbs) : (p.bulk vds vbs).m.g = p.G vds vbs := by
  obtain ⟨h1, _, _, h4⟩ := bulk_s p h
  have e1 : (p.bulk vds vbs).m = p.gam (p.bulk vds vbs).s (p.bulk vds vbs).b := rfl
  rw [e1]
  unfold P2.gam P2.G
  split
  · simp only [h1, h4]
    unfold P2.taken
    rw [show p.tphi - (vbs - vds) = p.tphi - vbs + vds by ring,
      show 2 * Real.sqrt (p.tphi - vbs) * p.xd / p.xj = 2 * p.xd / p.xj * Real.sqrt (p.tphi - vbs) by ring,
      show 2 * Real.sqrt (p.tphi - vbs + vds) * p.xd / p.xj = 2 * p.xd / p.xj * Real.sqrt (p.tphi - vbs + vds) by ring]
    have := h.len
    field_simp
  · rfl

/-- body effect along a path: the slopes of `gamma_s` are right -/
theorem G_path (p : P2) {d b : ℝ → ℝ} {d' b' t : ℝ} (h : p.Ok (d t) (b t)) (hd : HasDerivAt d d' t) (hb : HasDerivAt b b' t) :
    HasDerivAt (fun x => p.G (d x) (b x)) ((p.bulk (d t) (b t)).m.d * d' + (p.bulk (d t) (b t)).m.b * b') t := by
  obtain ⟨h1, _, _, h4⟩ := bulk_s p h
  have e1 : (p.bulk (d t) (b t)).m = p.gam (p.bulk (d t) (b t)).s (p.bulk (d t) (b t)).b := rfl
  rw [e1]
  by_cases hs : p.short = true
  · have f0 : 0 < p.tphi - b t := by have := h.phi; have := h.bulk; linarith
    have f1 : 0 < p.tphi - (b t - d t) := by have := h.drain; linarith
    have A := taken_path p (h.xj hs) h.len h.xd hb f0
    have B := taken_path p (h.xj hs) h.len h.xd (hb.sub hd) f1
    have C := ((A.const_sub 1).sub B).const_mul p.gamma
    have e : (fun x => p.G (d x) (b x)) = fun x => p.gamma * (((fun x => 1 - p.taken (b x)) - fun x => p.taken ((b - d) x)) x) := by
      funext x; unfold P2.G; rw [if_pos hs]; rfl
    rw [e]
    refine C.congr_deriv ?_
    unfold P2.gam
    simp only [if_pos hs, h1, h4, Pi.sub_apply]
    rw [show p.tphi - (b t - d t) = p.tphi - b t + d t by ring]
    ring
  · have e : (fun x => p.G (d x) (b x)) = fun _ => p.gamma := by funext x; unfold P2.G; rw [if_neg hs]
    rw [e]
    refine (hasDerivAt_const t p.gamma).congr_deriv ?_
    unfold P2.gam
    simp [if_neg hs]

/-! ## Saturation -/

theorem grove_eq (p : P2) {vds vbs u : ℝ} (h : p.Ok vds vbs) (hG : 0 < p.G vds vbs) (hu : 0 < u + (p.eta1 + 1) * (p.tphi - vbs)) :
    let k := p.bulk vds vbs
    let R := Real.sqrt (p.G vds vbs ^ 2 + 4 * (p.eta1 + 1) * (u + (p.eta1 + 1) * (p.tphi - vbs)))
    0 < R ∧ p.grove k u = ⟨vend u (p.G vds vbs) (p.eta1 + 1) (p.tphi - vbs), (R - p.G vds vbs) / ((p.eta1 + 1) * R),
      -(R - p.G vds vbs) ^ 2 / (2 * (p.eta1 + 1) ^ 2 * R) * k.m.b + p.G vds vbs / R +
        p.eta1 * ((R - p.G vds vbs) / ((p.eta1 + 1) * R)), false⟩ := by
  intro k R
  have he := h.eta
  have hi := inner_pos (g := p.G vds vbs) he hu
  have hR : 0 < R := Real.sqrt_pos.2 hi
  refine ⟨hR, ?_⟩
  have hRR : R ^ 2 = p.G vds vbs ^ 2 + 4 * (p.eta1 + 1) * (u + (p.eta1 + 1) * (p.tphi - vbs)) := Real.sq_sqrt hi.le
  have hk : k.m.g = p.G vds vbs := gam_eq p h
  have hkv : k.vbs = vbs := rfl
  have ha : 0 < u / p.eta + (p.tphi - vbs) := by
    unfold P2.eta
    have : u / (p.eta1 + 1) + (p.tphi - vbs) = (u + (p.eta1 + 1) * (p.tphi - vbs)) / (p.eta1 + 1) := by field_simp
    rw [this]; exact div_pos hu he
  have harg : Real.sqrt (1 + 4 * (u / p.eta + (p.tphi - vbs)) / (p.G vds vbs / p.eta * (p.G vds vbs / p.eta))) = R / p.G vds vbs := by
    have e : 1 + 4 * (u / p.eta + (p.tphi - vbs)) / (p.G vds vbs / p.eta * (p.G vds vbs / p.eta)) = (R / p.G vds vbs) ^ 2 := by
      rw [div_pow, hRR]
      unfold P2.eta
      field_simp
    rw [e]
    exact Real.sqrt_sq (by positivity)
  unfold P2.grove
  simp only [hk, hkv, if_pos hG, if_pos ha, harg]
  have hG0 := hG.ne'
  have hR0 := hR.ne'
  have he0 := he.ne'
  have hvd : vend u (p.G vds vbs) (p.eta1 + 1) (p.tphi - vbs) =
      ((R - p.G vds vbs) / (2 * (p.eta1 + 1))) ^ 2 - (p.tphi - vbs) := rfl
  rw [hvd]
  have hu' : u / (p.eta1 + 1) + (p.tphi - vbs) = (R ^ 2 - p.G vds vbs ^ 2) / (4 * (p.eta1 + 1) ^ 2) := by rw [hRR]; field_simp; ring
  have hu2 : u / (p.eta1 + 1) = (R ^ 2 - p.G vds vbs ^ 2) / (4 * (p.eta1 + 1) ^ 2) - (p.tphi - vbs) := by rw [← hu']; ring
  unfold P2.eta
  rw [hu', hu2]
  clear_value R
  clear hRR hu' hu2 harg ha hi hvd hu
  generalize p.G vds vbs = G at *
  generalize p.eta1 + 1 = e at *
  congr 1
  · field_simp
    ring
  · field_simp
  · field_simp
    ring

theorem grove_flat (p : P2) {vds vbs u : ℝ} (h : p.Ok vds vbs) (hG : p.G vds vbs = 0) (hu : 0 < u + (p.eta1 + 1) * (p.tphi - vbs)) :
    p.grove (p.bulk vds vbs) u = ⟨vend u (p.G vds vbs) (p.eta1 + 1) (p.tphi - vbs), 1, 0, false⟩ := by
  have he := h.eta
  unfold P2.grove
  simp only [gam_eq p h, hG, lt_irrefl, if_false]
  have : vend u 0 (p.eta1 + 1) (p.tphi - vbs) = u / p.eta := by
    unfold vend P2.eta
    rw [sub_zero, div_pow, Real.sq_sqrt (inner_pos (g := 0) he hu).le]
    field_simp
    ring
  rw [this]

/-- where the slopes of `vdsat` are those of the end of the channel, or do not matter -/
def P2.Plain (p : P2) (vds vbs : ℝ) : Prop := 0 < p.G vds vbs ∨ (p.gamma = 0 ∧ (p.lambda ≠ none ∨ p.eta1 = 0))

theorem plain_nonneg (p : P2) {vds vbs : ℝ} (h : p.Plain vds vbs) : 0 ≤ p.G vds vbs := by
  rcases h with h | ⟨h, _⟩
  · exact h.le
  · unfold P2.G; split <;> simp [h]

theorem grove_v (p : P2) {vds vbs u : ℝ} (h : p.Ok vds vbs) (hp : p.Plain vds vbs) (hu : 0 < u + (p.eta1 + 1) * (p.tphi - vbs)) :
    (p.grove (p.bulk vds vbs) u).v = vend u (p.G vds vbs) (p.eta1 + 1) (p.tphi - vbs) ∧ (p.grove (p.bulk vds vbs) u).baum = false := by
  rcases hp with hp | ⟨hp, _⟩
  · rw [(grove_eq p h hp hu).2]; exact ⟨rfl, rfl⟩
  · rw [grove_flat p h (by unfold P2.G; split <;> simp [hp]) hu]; exact ⟨rfl, rfl⟩

/-- the end of the channel along a path; `r` is what the code leaves out, with drain voltage -/
theorem end_path (p : P2) {u d b : ℝ → ℝ} {g' d' b' t : ℝ} (h : p.Ok (d t) (b t)) (hp : p.Plain (d t) (b t))
    (hu : HasDerivAt u (g' + p.eta1 * b') t) (hd : HasDerivAt d d' t) (hb : HasDerivAt b b' t)
    (h0 : 0 < u t + (p.eta1 + 1) * (p.tphi - b t)) :
    ∃ V', HasDerivAt (fun x => vend (u x) (p.G (d x) (b x)) (p.eta1 + 1) (p.tphi - b x)) V' t ∧
      (p.lambda ≠ none ∨ p.short = false ∨ d' = 0 →
        p.lambda = none → V' = (p.grove (p.bulk (d t) (b t)) (u t)).g * g' + (p.grove (p.bulk (d t) (b t)) (u t)).b * b') := by
  have hV := vend_path hu (G_path p h hd hb) (hb.const_sub p.tphi) h.eta h0
  simp only at hV
  refine ⟨_, hV, fun hc hl => ?_⟩
  have hD : (p.bulk (d t) (b t)).m.d * d' = 0 := by
    rcases hc with hc | hc | hc
    · exact absurd hl hc
    · have e1 : (p.bulk (d t) (b t)).m = p.gam (p.bulk (d t) (b t)).s (p.bulk (d t) (b t)).b := rfl
      rw [e1]; unfold P2.gam; simp [hc]
    · rw [hc, mul_zero]
  rw [hD, zero_add]
  rcases hp with hp | ⟨hp, hq⟩
  · rw [(grove_eq p h hp h0).2]
    simp only
    ring
  · have hG : p.G (d t) (b t) = 0 := by unfold P2.G; split <;> simp [hp]
    have hB : (p.bulk (d t) (b t)).m.b = 0 := by
      have e1 : (p.bulk (d t) (b t)).m = p.gam (p.bulk (d t) (b t)).s (p.bulk (d t) (b t)).b := rfl
      rw [e1]; unfold P2.gam; split <;> simp [hp]
    rw [grove_flat p h hG h0, hG, hB]
    have h1 : p.eta1 = 0 := by rcases hq with hq | hq
                               · exact absurd hl hq
                               · exact hq
    have hR : 0 < Real.sqrt ((0 : ℝ) ^ 2 + 4 * (p.eta1 + 1) * (u t + (p.eta1 + 1) * (p.tphi - b t))) := Real.sqrt_pos.2 (inner_pos h.eta h0)
    rw [h1] at hR ⊢
    generalize Real.sqrt ((0 : ℝ) ^ 2 + 4 * (0 + 1) * (u t + (0 + 1) * (p.tphi - b t))) = R at *
    field_simp
    ring

/-! ## Length -/

theorem length_eq (p : P2) {vds vbs : ℝ} (h : p.Ok vds vbs) (ueff : ℝ) (s : Sat2) (hs : s.baum = false) :
    (p.length ueff vds s).f = pinch (p.xwb / p.leff) (p.left vds s.v) := by
  have hl := h.len
  have hx := h.xwb
  have key : ∀ c : Len2, c.f = p.left vds s.v → (if c.f < p.xwb / p.leff then
      (⟨p.xwb / (2 - c.f * p.leff / p.xwb) / p.leff,
        c.g * (p.xwb / (2 - c.f * p.leff / p.xwb) * (p.xwb / (2 - c.f * p.leff / p.xwb)) / (p.xwb * p.xwb)),
        c.d * (p.xwb / (2 - c.f * p.leff / p.xwb) * (p.xwb / (2 - c.f * p.leff / p.xwb)) / (p.xwb * p.xwb)),
        c.b * (p.xwb / (2 - c.f * p.leff / p.xwb) * (p.xwb / (2 - c.f * p.leff / p.xwb)) / (p.xwb * p.xwb))⟩ : Len2) else c).f =
        pinch (p.xwb / p.leff) (p.left vds s.v) := by
    intro c hc
    unfold pinch
    rw [hc]
    by_cases hlt : p.left vds s.v < p.xwb / p.leff
    · rw [if_pos hlt, if_pos hlt]
      simp only
      have h2 : 2 * (p.xwb / p.leff) - p.left vds s.v ≠ 0 := by have := div_pos hx hl; linarith
      have h3 : 2 - p.left vds s.v * p.leff / p.xwb ≠ 0 := by
        intro h0
        apply h2
        have : p.left vds s.v * p.leff / p.xwb = 2 := by linarith
        rw [div_eq_iff hx.ne'] at this
        field_simp
        linarith
      rw [div_div, div_eq_div_iff (mul_ne_zero h3 hl.ne') h2]
      field_simp
    · rw [if_neg hlt, if_neg hlt, hc]
  unfold P2.length
  rw [if_pos h.drain]
  simp only
  refine key _ ?_
  unfold P2.left P2.shorten
  cases p.lambda with
  | some l => rfl
  | none =>
    simp only [hs]
    obtain ⟨h1, _, _⟩ := layer_path (hasDerivAt_id ((vds - s.v) / 4))
    simp only [id] at h1
    have e : (1 : ℝ) + (vds - s.v) / 4 * ((vds - s.v) / 4) = 1 + ((vds - s.v) / 4) ^ 2 := by ring
    rw [e]
    cases p.vmax <;> (simp only [if_pos h1.le]; ring)

/-- length left, along a path -/
theorem length_path (p : P2) {d V : ℝ → ℝ} {vbs g' d' b' V' t : ℝ} (h : p.Ok (d t) vbs) (ueff : ℝ) (s : Sat2) (hs : s.baum = false)
    (hd : HasDerivAt d d' t) (hV : HasDerivAt V V' t) (hv : s.v = V t) (he : p.lambda = none → V' = s.g * g' + s.b * b') :
    HasDerivAt (fun x => pinch (p.xwb / p.leff) (p.left (d x) (V x)))
      ((p.length ueff (d t) s).g * g' + (p.length ueff (d t) s).d * d' + (p.length ueff (d t) s).b * b') t := by
  have hl := h.len
  have hx := h.xwb
  have key : ∀ c : Len2, c.f = p.left (d t) (V t) → HasDerivAt (fun x => p.left (d x) (V x)) (c.g * g' + c.d * d' + c.b * b') t →
      let L := (if c.f < p.xwb / p.leff then
      (⟨p.xwb / (2 - c.f * p.leff / p.xwb) / p.leff,
        c.g * (p.xwb / (2 - c.f * p.leff / p.xwb) * (p.xwb / (2 - c.f * p.leff / p.xwb)) / (p.xwb * p.xwb)),
        c.d * (p.xwb / (2 - c.f * p.leff / p.xwb) * (p.xwb / (2 - c.f * p.leff / p.xwb)) / (p.xwb * p.xwb)),
        c.b * (p.xwb / (2 - c.f * p.leff / p.xwb) * (p.xwb / (2 - c.f * p.leff / p.xwb)) / (p.xwb * p.xwb))⟩ : Len2) else c)
      HasDerivAt (fun x => pinch (p.xwb / p.leff) (p.left (d x) (V x))) (L.g * g' + L.d * d' + L.b * b') t := by
    intro c hc hD L
    have hP : HasDerivAt (fun x => pinch (p.xwb / p.leff) (p.left (d x) (V x))) _ t :=
      HasDerivAt.comp (h₂ := pinch (p.xwb / p.leff)) t (pinch_deriv (p.xwb / p.leff) _ (div_pos hx hl)) hD
    refine hP.congr_deriv ?_
    simp only [L, hc]
    by_cases hlt : p.left (d t) (V t) < p.xwb / p.leff
    · rw [if_pos hlt, if_pos hlt]
      have h2 : 2 * (p.xwb / p.leff) - p.left (d t) (V t) ≠ 0 := by have := div_pos hx hl; linarith
      have h3 : 2 - p.left (d t) (V t) * p.leff / p.xwb ≠ 0 := by
        intro h0
        apply h2
        have : p.left (d t) (V t) * p.leff / p.xwb = 2 := by linarith
        rw [div_eq_iff hx.ne'] at this
        field_simp
        linarith
      have e : p.xwb / p.leff / (2 * (p.xwb / p.leff) - p.left (d t) (V t)) = 1 / (2 - p.left (d t) (V t) * p.leff / p.xwb) := by
        rw [div_eq_div_iff h2 h3]
        field_simp
      rw [e]
      generalize 2 - p.left (d t) (V t) * p.leff / p.xwb = m at *
      field_simp
    · rw [if_neg hlt, if_neg hlt, one_mul]
  unfold P2.length
  rw [if_pos h.drain]
  simp only
  refine key _ ?_ ?_
  · have := hv
    unfold P2.left P2.shorten
    cases p.lambda with
    | some l => rfl
    | none =>
      simp only [hs]
      obtain ⟨h1, _, _⟩ := layer_path (hasDerivAt_id ((d t - s.v) / 4))
      simp only [id] at h1
      have e : (1 : ℝ) + (d t - s.v) / 4 * ((d t - s.v) / 4) = 1 + ((d t - s.v) / 4) ^ 2 := by ring
      rw [e, ← hv]
      cases p.vmax <;> (simp only [if_pos h1.le]; ring)
  · unfold P2.left P2.shorten
    cases hlam : p.lambda with
    | some l =>
      refine ((hd.const_mul l).const_sub 1).congr_deriv ?_
      simp only
      ring
    | none =>
      simp only [hs]
      obtain ⟨h1, h2, h3⟩ := layer_path ((hd.sub hV).div_const 4)
      simp only [Pi.sub_apply] at h1 h2 h3
      have e : (1 : ℝ) + (d t - s.v) / 4 * ((d t - s.v) / 4) = 1 + ((d t - V t) / 4) ^ 2 := by rw [hv]; ring
      have h4 := (h3.const_mul (p.xd / p.leff)).const_sub 1
      refine h4.congr_deriv ?_
      have hV' := he hlam
      rw [e]
      simp only [← hv] at h1 ⊢
      cases p.vmax <;>
      · simp only [if_pos h1.le]
        rw [hV']
        rw [← hv] at h2
        generalize Real.sqrt ((d t - s.v) / 4 + Real.sqrt (1 + ((d t - s.v) / 4) ^ 2)) = W at *
        generalize Real.sqrt (1 + ((d t - s.v) / 4) ^ 2) = r at *
        field_simp
        ring

/-! ## The channel -/

theorem fixzero_zero (tol r : ℝ) : fixzero tol 0 r = 0 := by unfold fixzero; split <;> rfl

theorem fixzero_close (tol z r : ℝ) : |z - fixzero tol z r| ≤ |r * tol| ∧ (|r * tol| ≤ |z| → fixzero tol z r = z) := by
  unfold fixzero
  split
  · rename_i h; exact ⟨by rw [sub_zero]; exact h.le, fun h' => absurd h (not_lt.2 h')⟩
  · exact ⟨by rw [sub_self, abs_zero]; exact abs_nonneg _, fun _ => rfl⟩

theorem driven {u g e f : ℝ} (hg : 0 ≤ g) (he : 0 < e) (hf : 0 < f) (hu : g * Real.sqrt f ≤ u) : 0 < u + e * f := by
  have : 0 ≤ g * Real.sqrt f := mul_nonneg hg (Real.sqrt_nonneg f)
  have : 0 < e * f := mul_pos he hf
  linarith

/-- what the code computes for the channel, put in terms of the charge -/
theorem on_fields (p : P2) (hv : p.vmax = none) {vds vbs : ℝ} (h : p.Ok vds vbs) (hp : p.Plain vds vbs) (vgsx vgst : ℝ)
    (hu : p.Q vds vbs ≤ vgsx - p.T vbs) :
    let k := p.bulk vds vbs
    let u := vgsx - p.T vbs
    let f := p.tphi - vbs
    let G := p.G vds vbs
    let e := p.eta1 + 1
    let V := vend u G e f
    let z := min vds V
    let m := p.mob vgst (p.dvon k)
    let c := p.length (p.uo * m.f) vds (p.grove k u)
    let bt := p.beta * m.f / c.f
    let o := p.on k vgsx vgst
    o.ids = bt * drift u G e f z ∧
    o.gm = bt * z + o.ids * (m.g / m.f - c.g / c.f) ∧
    (∃ q, |bt * charge u G e f z - q| ≤ |o.ids * p.tol| ∧ (|o.ids * p.tol| ≤ |bt * charge u G e f z| ∨ bt * charge u G e f z = 0 →
      q = bt * charge u G e f z) ∧
      o.gds = q - o.ids * (c.d / c.f) - bt * (2 / 3) * ((f + z) * Real.sqrt (f + z) - f * Real.sqrt f) * k.m.d) ∧
    o.gmb = bt * (p.eta1 * z + G * (Real.sqrt (f + z) - Real.sqrt f)) + o.ids * (m.b / m.f - c.b / c.f) -
      bt * (2 / 3) * ((f + z) * Real.sqrt (f + z) - f * Real.sqrt f) * k.m.b ∧
    o.gsat = 0 ∧ o.bv = bt * z ∧ o.vdsat = V ∧ 0 ≤ V := by
  intro k u f G e V z m c bt o
  have s1 : k.s.r = Real.sqrt f := (bulk_s p h).1
  have s4 : k.b.r = Real.sqrt (f + vds) := (bulk_s p h).2.2.2
  have hf : 0 < f := by have := h.phi; have := h.bulk; show 0 < p.tphi - vbs; linarith
  have hG : 0 ≤ G := plain_nonneg p hp
  have h0 : 0 < u + e * f := driven hG h.eta hf hu
  have hV0 : 0 ≤ V := vend_nonneg h.eta hG h0 hu
  obtain ⟨g1, g2⟩ := grove_v p h hp h0
  have hsat : p.slopes k (p.uo * m.f) u (p.vsat k (p.uo * m.f) u) = p.grove k u := by
    unfold P2.vsat P2.slopes
    simp only [hv]
    rw [if_neg (by rw [g1]; exact not_lt.2 hV0)]
  have hvbin : vgsx - p.vbin k = u := rfl
  have hbs : (p.bsarg k V).1 = Real.sqrt (f + V) := by
    unfold P2.bsarg
    have : k.vbs - V ≤ 0 := by have := h.bulk; show vbs - V ≤ 0; linarith
    simp only [if_pos this]
    rw [show p.tphi - (k.vbs - V) = f + V by show p.tphi - (vbs - V) = p.tphi - vbs + V; ring]
  have hkd : k.vds = vds := rfl
  have hss : ∀ y : ℝ, 0 ≤ y → Real.sqrt y * Real.sqrt y * Real.sqrt y = y * Real.sqrt y := fun y hy => by rw [Real.mul_self_sqrt hy]
  have hshort : p.short = false → k.m.d = 0 ∧ k.m.b = 0 := by
    intro hs
    have e1 : k.m = p.gam k.s k.b := rfl
    rw [e1]; unfold P2.gam; simp [hs]
  have hd1 : ∀ y : ℝ, (if p.short = true then y * k.m.d else 0) = y * k.m.d := by
    intro y
    by_cases hs : p.short = true
    · simp [hs]
    · simp [hs, (hshort (by simpa using hs)).1]
  have hd2 : ∀ y : ℝ, (if p.short = true then y * k.m.b else 0) = y * k.m.b := by
    intro y
    by_cases hs : p.short = true
    · simp [hs]
    · simp [hs, (hshort (by simpa using hs)).2]
  have hfd : 0 < f + vds := by have := h.drain; linarith
  have key : ∀ zz bx : ℝ, bx = Real.sqrt (f + zz) → 0 ≤ f + zz →
      bx * bx * bx - k.s.r * k.s.r * k.s.r = (f + zz) * Real.sqrt (f + zz) - f * Real.sqrt f := by
    intro zz bx hb hz
    rw [hb, s1, hss _ hz, hss _ hf.le]
  have ho : o = p.on k vgsx vgst := rfl
  unfold P2.on at ho
  simp only [hvbin] at ho
  have hm : p.mob vgst (p.dvon k) = m := rfl
  simp only [hm, hsat] at ho
  have gv : (p.grove k u).v = V := g1
  simp only [gv, hkd] at ho
  have hc : p.length (p.uo * m.f) vds (p.grove k u) = c := rfl
  simp only [hc] at ho
  have hmg : k.m.g = G := gam_eq p h
  by_cases hlt : V < vds
  · have hz : z = V := min_eq_right hlt.le
    have hch : charge u G e f z = 0 := by rw [hz]; exact vend_charge h.eta h0
    have hdi : p.beta * m.f / c.f * (u - p.eta * V - k.m.g * (p.bsarg k V).1) = 0 := by
      rw [hbs, hmg, ← hz]
      have : u - p.eta * z - G * Real.sqrt (f + z) = 0 := hch
      rw [this, mul_zero]
    simp only [hlt, decide_true, if_true, hdi, fixzero_zero, zero_mul, add_zero, zero_add] at ho
    have hb := key V (p.bsarg k V).1 hbs (by linarith)
    rw [hb] at ho
    simp only [hmg, hd1, hd2] at ho
    have i1 : o.ids = bt * drift u G e f z := by
      rw [ho, hz]; unfold drift
      simp only
      show p.beta * m.f / c.f * _ = _
      show bt * _ = _
      rfl
    refine ⟨i1, ?_, ⟨0, ?_, ?_, ?_⟩, ?_, ?_, ?_, ?_, hV0⟩
    · rw [i1, hz, ho]; rfl
    · rw [hch, mul_zero, sub_zero, abs_zero]; exact abs_nonneg _
    · intro _; rw [hch, mul_zero]
    · rw [i1, hz, ho]; simp only [zero_div, zero_sub]
      show bt * _ * -(c.d / c.f) - bt * (2 / 3) * _ * _ = -(bt * drift u G e f V * _) - _
      unfold drift
      show bt * ((u - e / 2 * V) * V - _) * _ - _ = _
      ring
    · rw [i1, hz, ho]; simp only [s1, hbs]
      show bt * _ + bt * drift u G e f V * _ - _ = _
      show bt * (p.eta1 * V - G * (Real.sqrt f - Real.sqrt (f + V))) + _ - _ = _
      ring
    · rw [ho]
    · rw [hz, ho]
    · rw [ho]
  · have hz : z = vds := min_eq_left (not_lt.1 hlt)
    simp only [hlt, decide_false, Bool.false_eq_true, if_false, add_zero] at ho
    have hb := key vds k.b.r s4 hfd.le
    rw [hb] at ho
    simp only [hmg, hd1, hd2] at ho
    have i1 : o.ids = bt * drift u G e f z := by
      rw [ho, hz]; rfl
    have hqe : bt * charge u G e f z = p.beta * m.f / c.f * (u - p.eta * vds - G * k.b.r) := by rw [hz, s4]; rfl
    refine ⟨i1, ?_, ⟨fixzero p.tol (bt * charge u G e f z) o.ids, (fixzero_close _ _ _).1, fun hh => ?_, ?_⟩, ?_, ?_, ?_, ?_, hV0⟩
    · rw [i1, hz, ho]; rfl
    · rcases hh with hh | hh
      · exact (fixzero_close _ _ _).2 hh
      · rw [hh, fixzero_zero]
    · rw [hqe, i1, hz, ho]
      simp only [zero_div, zero_sub]
      show fixzero _ _ (bt * drift u G e f vds) + bt * drift u G e f vds * -(c.d / c.f) - _ = _
      ring
    · rw [i1, hz, ho]; simp only [s1, s4]
      show bt * _ + bt * drift u G e f vds * _ - _ = _
      show bt * (p.eta1 * vds - G * (Real.sqrt f - Real.sqrt (f + vds))) + _ - _ = _
      ring
    · rw [ho]
    · rw [hz, ho]
    · rw [ho]

theorem K_eq (p : P2) {vds vbs : ℝ} (h : p.Ok vds vbs) (hp : p.Plain vds vbs) (ueff u : ℝ) (hu : p.Q vds vbs ≤ u) :
    p.K u vds vbs = p.beta * drift u (p.G vds vbs) (p.eta1 + 1) (p.tphi - vbs)
      (min vds (vend u (p.G vds vbs) (p.eta1 + 1) (p.tphi - vbs))) / (p.length ueff vds (p.grove (p.bulk vds vbs) u)).f := by
  have hf : 0 < p.tphi - vbs := by have := h.phi; have := h.bulk; linarith
  have hG := plain_nonneg p hp
  obtain ⟨g1, g2⟩ := grove_v p h hp (driven hG h.eta hf hu)
  rw [length_eq p h ueff _ g2, g1]
  rfl

/-- the channel along a path -/
theorem K_path (p : P2) {u d b : ℝ → ℝ} {g' d' b' t : ℝ} (h : p.Ok (d t) (b t)) (hp : p.Plain (d t) (b t))
    (hu : HasDerivAt u (g' + p.eta1 * b') t) (hd : HasDerivAt d d' t) (hb : HasDerivAt b b' t)
    (h0 : p.Q (d t) (b t) ≤ u t) (hD : p.lambda ≠ none ∨ p.short = false ∨ d' = 0) (ueff : ℝ) :
    let k := p.bulk (d t) (b t)
    let f := p.tphi - b t
    let G := p.G (d t) (b t)
    let e := p.eta1 + 1
    let z := min (d t) (vend (u t) G e f)
    let c := p.length ueff (d t) (p.grove k (u t))
    let body := (f + z) * Real.sqrt (f + z) - f * Real.sqrt f
    HasDerivAt (fun x => p.K (u x) (d x) (b x))
      ((p.beta / c.f * z - p.K (u t) (d t) (b t) * (c.g / c.f)) * g' +
       (p.beta / c.f * charge (u t) G e f z - p.K (u t) (d t) (b t) * (c.d / c.f) - p.beta / c.f * (2 / 3) * body * k.m.d) * d' +
       (p.beta / c.f * (p.eta1 * z + G * (Real.sqrt (f + z) - Real.sqrt f)) - p.K (u t) (d t) (b t) * (c.b / c.f) -
         p.beta / c.f * (2 / 3) * body * k.m.b) * b') t := by
  intro k f G e z c body
  have hf : 0 < p.tphi - b t := by have := h.phi; have := h.bulk; linarith
  have hG : 0 ≤ p.G (d t) (b t) := plain_nonneg p hp
  have hpos := driven hG h.eta hf h0
  have hJ := channel_path hu (G_path p h hd hb) (hb.const_sub p.tphi) hd h.eta hpos hf (by have := h.drain; linarith)
  simp only at hJ
  obtain ⟨V', hV, hV'⟩ := end_path p h hp hu hd hb hpos
  obtain ⟨g1, g2⟩ := grove_v p h hp hpos
  have hL := length_path p h ueff _ g2 hd hV g1 (hV' hD)
  have hcf : c.f = pinch (p.xwb / p.leff) (p.left (d t) (vend (u t) G e f)) := by
    have := length_eq p h ueff _ g2
    rw [g1] at this; exact this
  have hcpos : 0 < c.f := by rw [hcf]; exact pinch_pos (div_pos h.xwb h.len)
  have hK := (hJ.const_mul p.beta).div hL (by
    show pinch (p.xwb / p.leff) (p.left (d t) (vend (u t) (p.G (d t) (b t)) (p.eta1 + 1) (p.tphi - b t))) ≠ 0
    exact (pinch_pos (div_pos h.xwb h.len)).ne')
  refine hK.congr_deriv ?_
  rw [K_eq p h hp ueff (u t) h0]
  change (p.beta * (z * (g' + p.eta1 * b') - 2 / 3 * body * (k.m.d * d' + k.m.b * b') - G * (Real.sqrt (f + z) - Real.sqrt f) * -b' +
    charge (u t) G e f z * d') * pinch (p.xwb / p.leff) (p.left (d t) (vend (u t) G e f)) -
    p.beta * drift (u t) G e f z * (c.g * g' + c.d * d' + c.b * b')) / pinch (p.xwb / p.leff) (p.left (d t) (vend (u t) G e f)) ^ 2 =
    (p.beta / c.f * z - p.beta * drift (u t) G e f z / c.f * (c.g / c.f)) * g' +
       (p.beta / c.f * charge (u t) G e f z - p.beta * drift (u t) G e f z / c.f * (c.d / c.f) - p.beta / c.f * (2 / 3) * body * k.m.d) * d' +
       (p.beta / c.f * (p.eta1 * z + G * (Real.sqrt (f + z) - Real.sqrt f)) - p.beta * drift (u t) G e f z / c.f * (c.b / c.f) -
         p.beta / c.f * (2 / 3) * body * k.m.b) * b'
  rw [← hcf]
  generalize c.f = cf at *
  field_simp
  ring

/-- the law where the channel is there, mobility included -/
theorem on_current (p : P2) (hv : p.vmax = none) {vds vbs : ℝ} (h : p.Ok vds vbs) (hp : p.Plain vds vbs) (vgsx vgst : ℝ)
    (hu : p.Q vds vbs ≤ vgsx - p.T vbs) :
    (p.on (p.bulk vds vbs) vgsx vgst).ids = p.K (vgsx - p.T vbs) vds vbs * p.move vgst := by
  have h1 := (on_fields p hv h hp vgsx vgst hu).1
  rw [h1, K_eq p h hp (p.uo * (p.mob vgst (p.dvon (p.bulk vds vbs))).f) _ hu]
  have : (p.mob vgst (p.dvon (p.bulk vds vbs))).f = p.move vgst := by
    unfold P2.mob P2.move
    cases p.uexp with
    | none => rfl
    | some e => simp only; split <;> rfl
  rw [this]
  ring

theorem Q_path (p : P2) {d b : ℝ → ℝ} {d' b' t : ℝ} (h : p.Ok (d t) (b t)) (hd : HasDerivAt d d' t) (hb : HasDerivAt b b' t) :
    let k := p.bulk (d t) (b t)
    HasDerivAt (fun x => p.Q (d x) (b x)) (k.m.d * k.s.r * d' + (k.m.b * k.s.r + k.m.g * k.s.d) * b') t := by
  intro k
  have hf : 0 < p.tphi - b t := by have := h.phi; have := h.bulk; linarith
  obtain ⟨s1, s2, _, _⟩ := bulk_s p h
  refine ((G_path p h hd hb).mul (root_path p hb hf)).congr_deriv ?_
  have e1 : k.s.r = Real.sqrt (p.tphi - b t) := s1
  have e2 : k.s.d = -(1 / 2) / Real.sqrt (p.tphi - b t) := s2
  have e3 : k.m.g = p.G (d t) (b t) := gam_eq p h
  rw [e1, e2, e3]
  ring

theorem N2_eq (p : P2) {vds vbs : ℝ} (h : p.Ok vds vbs) : p.xn (p.bulk vds vbs) = p.N vds vbs := by
  have h1 := Q_path p (d := fun _ => vds) (b := id) (t := vbs) h (hasDerivAt_const _ _) (hasDerivAt_id _)
  have h2 : deriv (p.Q vds) vbs = _ := HasDerivAt.deriv (f := p.Q vds) h1
  unfold P2.N P2.xn
  rw [h2]
  simp only [id]
  ring

theorem von_eq (p : P2) {vds vbs : ℝ} (h : p.Ok vds vbs) :
    p.von (p.bulk vds vbs) = p.T vbs + p.Q vds vbs + if p.sub then p.vt * p.N vds vbs else 0 := by
  unfold P2.von
  rw [N2_eq p h]
  obtain ⟨s1, _, _, _⟩ := bulk_s p h
  rw [gam_eq p h, s1]
  rfl

/-- **C97, current.**  Without velocity saturation, at every drain and gate voltage level 2 gives the current of its equations, with the
threshold and saturation voltage of these. -/
theorem level2_current (p : P2) (hv : p.vmax = none) (vgs vds vbs : ℝ) (h : p.Ok vds vbs) (hp : p.Plain vds vbs)
    (hn : p.sub = true → 0 ≤ p.vt * p.N vds vbs) :
    p.eval vgs vds vbs = some (p.out vgs vds vbs) ∧ (p.out vgs vds vbs).ids = p.I vgs vds vbs ∧
    (p.out vgs vds vbs).von = p.T vbs + p.Q vds vbs + if p.sub then p.vt * p.N vds vbs else 0 := by
  have hvon := von_eq p h
  refine ⟨?_, ?_, ?_⟩
  · unfold P2.eval P2.nan
    simp [hv]
  · unfold P2.out P2.I
    by_cases hs : p.sub = true
    · simp only [if_pos hs]
      rw [if_pos hs] at hvon
      by_cases hw : vgs < p.von (p.bulk vds vbs)
      · have hw' : vgs - p.T vbs < p.Q vds vbs + p.vt * p.N vds vbs := by linarith
        simp only [if_pos hw, if_pos hw']
        unfold P2.weak
        simp only
        rw [on_current p hv h hp _ _ (by rw [hvon]; have := hn hs; linarith), N2_eq p h, hvon]
        have e1 : p.T vbs + p.Q vds vbs + p.vt * p.N vds vbs - p.T vbs = p.Q vds vbs + p.vt * p.N vds vbs := by ring
        have e2 : vgs - (p.T vbs + p.Q vds vbs + p.vt * p.N vds vbs) = vgs - p.T vbs - p.Q vds vbs - p.vt * p.N vds vbs := by ring
        rw [e1, e2]
        have e3 : p.move (vgs - p.T vbs - p.Q vds vbs - p.vt * p.N vds vbs) = 1 := by
          unfold P2.move
          have hb := h.vbp
          cases hx : p.uexp with
          | none => rfl
          | some e => simp only; rw [if_neg (by rw [hx] at hb; have := hb.resolve_left (by simp); linarith)]
        rw [e3, mul_one]
      · have hw' : ¬ vgs - p.T vbs < p.Q vds vbs + p.vt * p.N vds vbs := by linarith
        simp only [if_neg hw, if_neg hw']
        rw [on_current p hv h hp _ _ (by have := hn hs; linarith), hvon]
        congr 2
        ring
    · simp only [if_neg hs]
      rw [if_neg hs] at hvon
      by_cases hw : vgs < p.von (p.bulk vds vbs)
      · have hw' : vgs - p.T vbs < p.Q vds vbs := by linarith
        simp only [if_pos hw, if_pos hw']
      · have hw' : ¬ vgs - p.T vbs < p.Q vds vbs := by linarith
        simp only [if_neg hw, if_neg hw']
        rw [on_current p hv h hp _ _ (by linarith), hvon]
        congr 2
        ring
  · unfold P2.out
    by_cases hs : p.sub = true
    · simp only [if_pos hs]
      rw [if_pos hs] at hvon
      split
      · unfold P2.weak; exact hvon
      · exact hvon
    · simp only [if_neg hs]
      rw [if_neg hs] at hvon
      split <;> exact hvon

/-! ## Slopes above threshold -/

theorem mob_facts (p : P2) {vds vbs : ℝ} (h : p.Ok vds vbs) (x dv : ℝ) (hx : p.uexp = none ∨ x ≠ p.vbp) :
    (p.mob x dv).f = p.move x ∧ (p.mob x dv).f ≠ 0 ∧ (p.mob x dv).b = -dv * (p.mob x dv).g ∧ HasDerivAt p.move (p.mob x dv).g x := by
  have hb := h.vbp
  cases he : p.uexp with
  | none =>
    have e : p.move = fun _ => 1 := by funext y; unfold P2.move; rw [he]
    unfold P2.mob
    rw [he, e]
    exact ⟨rfl, one_ne_zero, by simp, hasDerivAt_const _ _⟩
  | some e =>
    rw [he] at hx hb
    have hx' : x ≠ p.vbp := hx.resolve_left (by simp)
    have hb' : 0 < p.vbp := hb.resolve_left (by simp)
    have em : p.move = fun y => if p.vbp < y then (p.vbp / y) ^ e else 1 := by funext y; unfold P2.move; rw [he]
    rcases lt_or_gt_of_ne hx' with hl | hl
    · unfold P2.mob
      rw [he, em]
      simp only [if_neg (not_lt.2 hl.le)]
      refine ⟨trivial, one_ne_zero, by simp, (hasDerivAt_const x (1 : ℝ)).congr_of_eventuallyEq ?_⟩
      filter_upwards [Iio_mem_nhds hl] with y hy
      rw [if_neg (not_lt.2 (le_of_lt hy))]
    · have hx0 : 0 < x := by linarith
      have hq : 0 < p.vbp / x := div_pos hb' hx0
      unfold P2.mob
      rw [he, em]
      simp only [if_pos hl]
      refine ⟨trivial, (Real.rpow_pos_of_pos hq e).ne', by ring, ?_⟩
      have h1 : HasDerivAt (fun y => (p.vbp / y) ^ e) _ x :=
        ((hasDerivAt_const x p.vbp).div (hasDerivAt_id x) hx0.ne').rpow_const (p := e) (Or.inl hq.ne')
      refine (h1.congr_of_eventuallyEq ?_).congr_deriv ?_
      · filter_upwards [Ioi_mem_nhds hl] with y hy
        rw [if_pos (show p.vbp < y from hy)]
      · simp only [id, Pi.div_apply]
        rw [Real.rpow_sub_one hq.ne']
        field_simp
        ring

/-- gate voltage above the border between weak and strong, or off and on -/
noncomputable def P2.over (p : P2) (vgs vds vbs : ℝ) : ℝ :=
  vgs - p.T vbs - p.Q vds vbs - if p.sub then p.vt * p.N vds vbs else 0

/-- strong inversion, not at the onset of the effect on mobility -/
structure P2.Strong (p : P2) (vgs vds vbs : ℝ) : Prop where
  ok : p.Ok vds vbs
  plain : p.Plain vds vbs
  n : p.sub = true → 0 ≤ p.vt * p.N vds vbs
  above : 0 < p.over vgs vds vbs
  smooth : p.uexp = none ∨ p.over vgs vds vbs ≠ p.vbp

theorem strong_out (p : P2) {vgs vds vbs : ℝ} (h : p.Strong vgs vds vbs) :
    let o := p.on (p.bulk vds vbs) vgs (p.over vgs vds vbs)
    (p.out vgs vds vbs).ids = o.ids ∧ (p.out vgs vds vbs).gm = o.gm ∧ (p.out vgs vds vbs).gds = o.gds ∧ (p.out vgs vds vbs).gmb = o.gmb ∧
    p.Q vds vbs ≤ vgs - p.T vbs := by
  intro o
  have hvon := von_eq p h.ok
  have ha := h.above
  have hov : vgs - p.von (p.bulk vds vbs) = p.over vgs vds vbs := by rw [hvon]; unfold P2.over; ring
  have hnl : ¬ vgs < p.von (p.bulk vds vbs) := by linarith
  have hq : p.Q vds vbs ≤ vgs - p.T vbs := by
    unfold P2.over at ha
    by_cases hs : p.sub = true
    · rw [if_pos hs] at ha; have := h.n hs; linarith
    · rw [if_neg hs] at ha; linarith
  unfold P2.out
  by_cases hs : p.sub = true
  · simp only [if_pos hs, if_neg hnl, hov]
    exact ⟨rfl, rfl, rfl, rfl, hq⟩
  · simp only [if_neg hs, if_neg hnl, hov]
    exact ⟨rfl, rfl, rfl, rfl, hq⟩

/-- the law there -/
theorem strong_I (p : P2) {vgs vds vbs : ℝ} (ha : 0 ≤ p.over vgs vds vbs) :
    p.I vgs vds vbs = p.K (vgs - p.T vbs) vds vbs * p.move (p.over vgs vds vbs) := by
  unfold P2.I
  by_cases hs : p.sub = true
  · have e : p.over vgs vds vbs = vgs - p.T vbs - p.Q vds vbs - p.vt * p.N vds vbs := by unfold P2.over; rw [if_pos hs]
    simp only [if_pos hs]
    rw [if_neg (by linarith), e]
  · have e : p.over vgs vds vbs = vgs - p.T vbs - p.Q vds vbs := by unfold P2.over; rw [if_neg hs, sub_zero]
    simp only [if_neg hs]
    rw [if_neg (by linarith), e]

/-- **C97, transconductance.**  Above threshold, without velocity saturation, it is the slope of the current. -/
theorem level2_gm (p : P2) (hv : p.vmax = none) (vgs vds vbs : ℝ) (h : p.Strong vgs vds vbs) :
    HasDerivAt (fun x => p.I x vds vbs) (p.out vgs vds vbs).gm vgs := by
  obtain ⟨_, o2, _, _, hq⟩ := strong_out p h
  obtain ⟨f1, f2, _⟩ := on_fields p hv h.ok h.plain vgs (p.over vgs vds vbs) hq
  obtain ⟨m1, m2, _, m4⟩ := mob_facts p h.ok (p.over vgs vds vbs) (p.dvon (p.bulk vds vbs)) h.smooth
  set m := p.mob (p.over vgs vds vbs) (p.dvon (p.bulk vds vbs)) with hm
  have hu : HasDerivAt (fun x => x - p.T vbs) (1 + p.eta1 * 0) vgs := ((hasDerivAt_id vgs).sub_const _).congr_deriv (by ring)
  have hK := K_path p (d := fun _ => vds) (b := fun _ => vbs) h.ok h.plain hu (hasDerivAt_const _ _) (hasDerivAt_const _ _) hq
    (Or.inr (Or.inr rfl)) (p.uo * m.f)
  have hov : HasDerivAt (fun x => p.over x vds vbs) 1 vgs := by
    unfold P2.over
    exact (((hasDerivAt_id vgs).sub_const _).sub_const _).sub_const _
  have hM : HasDerivAt (fun x => p.move (p.over x vds vbs)) (m.g * 1) vgs := HasDerivAt.comp (h₂ := p.move) vgs m4 hov
  have hI : (fun x => p.I x vds vbs) =ᶠ[nhds vgs] fun x => p.K (x - p.T vbs) vds vbs * p.move (p.over x vds vbs) := by
    filter_upwards [hov.continuousAt.eventually_const_lt h.above] with x hx
    exact strong_I p (le_of_lt hx)
  refine ((hK.mul hM).congr_of_eventuallyEq hI).congr_deriv ?_
  rw [o2, f2, on_current p hv h.ok h.plain vgs _ hq, ← m1]
  simp only [mul_zero, add_zero, mul_one, zero_mul]
  field_simp
  ring

/-- **C97, output conductance.**  Above threshold it is the slope of the current, but for what `roundofftol` takes from it: for a long
channel, or a short one with `lambda` and no effect on mobility. -/
theorem level2_gds (p : P2) (hv : p.vmax = none) (vgs vds vbs : ℝ) (h : p.Strong vgs vds vbs)
    (hc : p.short = false ∨ (p.sub = false ∧ p.uexp = none ∧ p.lambda ≠ none)) :
    ∃ r, |r| ≤ |(p.out vgs vds vbs).ids * p.tol| ∧ HasDerivAt (fun x => p.I vgs x vbs) ((p.out vgs vds vbs).gds + r) vds := by
  obtain ⟨o1, _, o3, _, hq⟩ := strong_out p h
  obtain ⟨f1, _, ⟨q, q1, _, f3⟩, _⟩ := on_fields p hv h.ok h.plain vgs (p.over vgs vds vbs) hq
  obtain ⟨m1, m2, _, m4⟩ := mob_facts p h.ok (p.over vgs vds vbs) (p.dvon (p.bulk vds vbs)) h.smooth
  set m := p.mob (p.over vgs vds vbs) (p.dvon (p.bulk vds vbs)) with hm
  have hu : HasDerivAt (fun _ : ℝ => vgs - p.T vbs) (0 + p.eta1 * 0) vds := (hasDerivAt_const _ _).congr_deriv (by ring)
  have hK := K_path p (d := id) (b := fun _ => vbs) (t := vds) h.ok h.plain hu (hasDerivAt_id _) (hasDerivAt_const _ _) hq
    (by rcases hc with hc | hc
        · exact Or.inr (Or.inl hc)
        · exact Or.inl hc.2.2) (p.uo * m.f)
  simp only [id] at hK
  -- mobility does not move
  have hM : ∀ᶠ x in nhds vds, 0 ≤ p.over vgs x vbs ∧ p.move (p.over vgs x vbs) = p.move (p.over vgs vds vbs) := by
    rcases hc with hc | ⟨hs, hx, _⟩
    · have hG : ∀ x y, p.G x y = p.gamma := fun x y => by unfold P2.G; simp [hc]
      have hQ : ∀ x, p.Q x = p.Q vds := fun x => by funext y; unfold P2.Q; rw [hG, hG]
      have hN : ∀ x, p.N x vbs = p.N vds vbs := fun x => by unfold P2.N; rw [hQ]
      refine Filter.Eventually.of_forall fun x => ?_
      have : p.over vgs x vbs = p.over vgs vds vbs := by unfold P2.over; rw [hQ x, hN]
      rw [this]
      exact ⟨h.above.le, rfl⟩
    · have hov : ContinuousAt (fun x => p.over vgs x vbs) vds := by
        have hQ := (Q_path p (d := id) (b := fun _ => vbs) (t := vds) h.ok (hasDerivAt_id _) (hasDerivAt_const _ _)).continuousAt
        have e : (fun x => p.over vgs x vbs) = fun x => vgs - p.T vbs - p.Q x vbs := by
          funext x; unfold P2.over; simp [hs]
        rw [e]
        exact continuousAt_const.sub hQ
      filter_upwards [hov.eventually_const_lt h.above] with x hx'
      refine ⟨le_of_lt hx', ?_⟩
      unfold P2.move; rw [hx]
  have hI : (fun x => p.I vgs x vbs) =ᶠ[nhds vds] fun x => p.K (vgs - p.T vbs) x vbs * m.f := by
    filter_upwards [hM] with x hx
    rw [strong_I p hx.1, hx.2, m1]
  refine ⟨p.beta * m.f / (p.length (p.uo * m.f) vds (p.grove (p.bulk vds vbs) (vgs - p.T vbs))).f *
      charge (vgs - p.T vbs) (p.G vds vbs) (p.eta1 + 1) (p.tphi - vbs)
        (min vds (vend (vgs - p.T vbs) (p.G vds vbs) (p.eta1 + 1) (p.tphi - vbs))) - q, ?_,
    ((hK.mul_const m.f).congr_of_eventuallyEq hI).congr_deriv ?_⟩
  · rw [o1]; exact q1
  · rw [o3, f3, on_current p hv h.ok h.plain vgs _ hq, ← m1]
    simp only [mul_zero, add_zero, mul_one, zero_mul, zero_add]
    ring

/-- **C97, slope with bulk voltage.**  Above threshold it is that of the current, without weak inversion or without effect on mobility. -/
theorem level2_gmb (p : P2) (hv : p.vmax = none) (vgs vds vbs : ℝ) (h : p.Strong vgs vds vbs)
    (hc : p.sub = false ∨ (p.short = false ∧ p.uexp = none)) :
    HasDerivAt (fun x => p.I vgs vds x) (p.out vgs vds vbs).gmb vbs := by
  obtain ⟨_, _, _, o4, hq⟩ := strong_out p h
  obtain ⟨f1, _, _, f4, _⟩ := on_fields p hv h.ok h.plain vgs (p.over vgs vds vbs) hq
  obtain ⟨m1, m2, m3, m4⟩ := mob_facts p h.ok (p.over vgs vds vbs) (p.dvon (p.bulk vds vbs)) h.smooth
  set m := p.mob (p.over vgs vds vbs) (p.dvon (p.bulk vds vbs)) with hm
  have hT : HasDerivAt p.T (-p.eta1) vbs := by
    unfold P2.T
    exact ((((hasDerivAt_id vbs).const_sub p.tphi).const_mul p.eta1).const_add p.vbi).congr_deriv (by ring)
  have hu : HasDerivAt (fun x => vgs - p.T x) (0 + p.eta1 * 1) vbs := (hT.const_sub vgs).congr_deriv (by ring)
  have hK := K_path p (d := fun _ => vds) (b := id) (t := vbs) h.ok h.plain hu (hasDerivAt_const _ _) (hasDerivAt_id _) hq
    (Or.inr (Or.inr rfl)) (p.uo * m.f)
  simp only [id] at hK
  have hQ := Q_path p (d := fun _ => vds) (b := id) (t := vbs) h.ok (hasDerivAt_const _ _) (hasDerivAt_id _)
  simp only [id] at hQ
  have hM : HasDerivAt (fun x => p.move (p.over vgs vds x)) m.b vbs ∧ ∀ᶠ x in nhds vbs, 0 ≤ p.over vgs vds x := by
    by_cases hs : p.sub = true
    · obtain ⟨hsh, hx⟩ := hc.resolve_left (by simp [hs])
      have e1 : p.move = fun _ => 1 := by funext y; unfold P2.move; rw [hx]
      refine ⟨?_, ?_⟩
      · rw [e1]
        refine (hasDerivAt_const vbs (1 : ℝ)).congr_deriv ?_
        rw [hm]; unfold P2.mob; rw [hx]
      · have hf : 0 < p.tphi - vbs := by have := h.ok.phi; have := h.ok.bulk; linarith
        have hG : ∀ x y, p.G x y = p.gamma := fun x y => by unfold P2.G; simp [hsh]
        have hd : ∀ y, 0 < p.tphi - y → deriv (p.Q vds) y = p.gamma * (-(1 / 2) / Real.sqrt (p.tphi - y)) := by
          intro y hy
          have := (root_path p (hasDerivAt_id y) hy).const_mul p.gamma
          have e : p.Q vds = fun x => p.gamma * Real.sqrt (p.tphi - id x) := by funext x; unfold P2.Q; rw [hG]; rfl
          rw [e, this.deriv]; simp
        have hov : ContinuousAt (fun x => p.over vgs vds x) vbs := by
          have e : (fun x => p.over vgs vds x) =ᶠ[nhds vbs] fun x => vgs - p.T x - p.Q vds x -
              p.vt * (1 + p.cfsox + p.eta1 - p.gamma * (-(1 / 2) / Real.sqrt (p.tphi - x))) := by
            filter_upwards [Iio_mem_nhds (show vbs < p.tphi by linarith)] with x hx
            have hx' : x < p.tphi := hx
            unfold P2.over P2.N
            rw [if_pos hs, hd x (by linarith)]
          refine ContinuousAt.congr ?_ e.symm
          have c1 : ContinuousAt (fun x => Real.sqrt (p.tphi - x)) vbs := (root_path p (hasDerivAt_id vbs) hf).continuousAt
          have hr : Real.sqrt (p.tphi - vbs) ≠ 0 := (Real.sqrt_pos.2 hf).ne'
          exact ((continuousAt_const.sub hT.continuousAt).sub hQ.continuousAt).sub
            (continuousAt_const.mul (continuousAt_const.sub (continuousAt_const.mul (continuousAt_const.div c1 hr))))
        filter_upwards [hov.eventually_const_lt h.above] with x hx
        exact le_of_lt hx
    · have e : (fun x => p.over vgs vds x) = fun x => vgs - p.T x - p.Q vds x := by funext x; unfold P2.over; rw [if_neg hs, sub_zero]
      have hov : HasDerivAt (fun x => p.over vgs vds x) (-p.dvon (p.bulk vds vbs)) vbs := by
        rw [e]
        refine ((hT.const_sub vgs).sub hQ).congr_deriv ?_
        unfold P2.dvon
        rw [if_neg hs]
        ring
      refine ⟨?_, ?_⟩
      · have := HasDerivAt.comp (h₂ := p.move) vbs m4 hov
        refine this.congr_deriv ?_
        rw [m3]; ring
      · filter_upwards [hov.continuousAt.eventually_const_lt h.above] with x hx
        exact le_of_lt hx
  have hI : (fun x => p.I vgs vds x) =ᶠ[nhds vbs] fun x => p.K (vgs - p.T x) vds x * p.move (p.over vgs vds x) := by
    filter_upwards [hM.2] with x hx
    exact strong_I p hx
  refine ((hK.mul hM.1).congr_of_eventuallyEq hI).congr_deriv ?_
  rw [o4, f4, on_current p hv h.ok h.plain vgs _ hq, ← m1]
  simp only [mul_zero, add_zero, mul_one, zero_mul, zero_add]
  field_simp
  ring

end Gnucap.Mos
