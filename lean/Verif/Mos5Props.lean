import Verif.Mos5Model
import Verif.MosProps
import Mathlib.Analysis.SpecialFunctions.Trigonometric.DerivHyp
import Mathlib.Analysis.SpecialFunctions.ExpDeriv
import Mathlib.Analysis.Complex.ExponentialBounds
import Mathlib.Tactic.LinearCombination

/-!
# Mosfet, level 5 (BSIM2): current and slopes (properties, C101)

The law is written here from the published equations, in real functions and without the guards of the code.
-/
namespace Gnucap.Mos

/-! ## The law -/

/-- Specification: threshold voltage -/
noncomputable def P5.Vth (p : P5) (d b : ℝ) : ℝ := p.vfb + p.phi + p.k1 * √(p.phi - b) - p.k2 * (p.phi - b) - (p.eta0 + p.etaB * b) * d

/-- Specification: body factor -/
noncomputable def P5.A (p : P5) (b : ℝ) : ℝ := 1 + p.k1 / (2 * √(p.phi - b)) * (1 - 1 / (1.744 + 0.8364 * (p.phi - b)))

/-- Specification: subthreshold swing -/
noncomputable def P5.N (p : P5) (d b : ℝ) : ℝ := p.n0 + p.nB / √(p.phi - b) + p.nD * d

/-- Specification: effective gate voltage in weak inversion, `u` volts above threshold -/
noncomputable def P5.weakV (p : P5) (u d b : ℝ) : ℝ :=
  p.vtm * √(2 * p.A b * (1 - Real.exp (-d / p.vtm))) * Real.exp ((p.vof0 + p.vofB * b + p.vofD * d) / 2 + u / (2 * p.N d b * p.vtm))

/-- Specification: the cubic with values `y0`, `y1` and slopes `m0`, `m1` at `x0`, `x1` -/
noncomputable def hermite (x0 x1 y0 y1 m0 m1 x : ℝ) : ℝ :=
  let s := (x - x0) / (x1 - x0)
  (2 * s ^ 3 - 3 * s ^ 2 + 1) * y0 + (s ^ 3 - 2 * s ^ 2 + s) * (x1 - x0) * m0 + (3 * s ^ 2 - 2 * s ^ 3) * y1 + (s ^ 3 - s ^ 2) * (x1 - x0) * m1

/-- Specification: effective gate voltage -/
noncomputable def P5.Vg (p : P5) (r : Range) (u d b : ℝ) : ℝ :=
  match r with
  | .high => u
  | .low => p.weakV u d b
  | .mid => hermite p.vglow p.vghigh (p.weakV p.vglow d b) p.vghigh (p.weakV p.vglow d b / (2 * p.N d b * p.vtm)) 1 u

/-- Specification: loss of mobility from the gate -/
def P5.U0 (p : P5) (v b : ℝ) : ℝ := 1 + (p.ua0 + p.uaB * b) * v + (p.ub0 + p.ubB * b) * v ^ 2

/-- Specification: critical voltage -/
noncomputable def P5.Vc (p : P5) (v b : ℝ) : ℝ := (p.u10 + p.u1B * b) * v / (p.A b * p.U0 v b)

/-- Specification: the factor of velocity saturation -/
noncomputable def K5 (c : ℝ) : ℝ := (1 + c + √(1 + 2 * c)) / 2

/-- Specification: saturation voltage -/
noncomputable def P5.Vsat (p : P5) (v b : ℝ) : ℝ := v / (p.A b * √(K5 (p.Vc v b)))

/-- Specification: gain, `x` the saturation voltage -/
noncomputable def P5.Gain (p : P5) (x g d b : ℝ) : ℝ :=
  let g0 := p.beta0 + p.beta0B * b
  let g2 := p.beta20 + p.beta2B * b + p.beta2G * g
  let g3 := p.beta30 + p.beta3B * b + p.beta3G * g
  let g4 := p.beta40 + p.beta4B * b + p.beta4G * g
  let g1 := p.betas0 + p.betasB * b - g0 - g3 * p.vdd + g4 * p.vdd ^ 2
  g0 + g1 * Real.tanh (g2 * d / x) + g3 * d - g4 * d ^ 2

/-- Specification: increase by hot electrons -/
noncomputable def P5.Hot (p : P5) (x d b : ℝ) : ℝ :=
  if p.ai0 = 0 then 1 else 1 + (p.ai0 + p.aiB * b) * Real.exp (-((p.bi0 + p.biB * b) / (d - x)))

/-- Specification: below saturation, `v` the effective gate voltage -/
noncomputable def P5.Itri (p : P5) (v g d b : ℝ) : ℝ :=
  p.Gain (p.Vsat v b) g d b * (v - p.A b * d / 2) * d / (p.U0 v b + (p.u10 + p.u1B * b) * (1 - p.u1D * (d / p.Vsat v b - 1) ^ 2) * d)

/-- Specification: in saturation -/
noncomputable def P5.Isat (p : P5) (v g d b : ℝ) : ℝ :=
  p.Gain (p.Vsat v b) g d b * v ^ 2 / (2 * p.A b * K5 (p.Vc v b) * p.U0 v b) * p.Hot (p.Vsat v b) d b

/-- Specification: in weak inversion; hot electrons only above the saturation voltage -/
noncomputable def P5.Iweak (p : P5) (hot : Bool) (u g d b : ℝ) : ℝ :=
  p.Gain (p.Vsat (p.weakV u d b) b) g d b * p.vtm ^ 2 * Real.exp (p.vof0 + p.vofB * b + p.vofD * d + u / (p.N d b * p.vtm))
    * (1 - Real.exp (-d / p.vtm)) * (if hot then p.Hot (p.Vsat (p.weakV u d b) b) d b else 1)

/-! ## Threshold and body factor -/

/-- reverse bias of the bulk, and parameters with a meaning -/
structure P5.Ok (p : P5) (b : ℝ) : Prop where
  bulk : b < 0
  phi : 0 ≤ p.phi
  k1 : 0 ≤ p.k1

theorem t1s5 (p : P5) {b : ℝ} (h : p.Ok b) : p.t1s b = (√(p.phi - b), -(1 / 2) / √(p.phi - b)) ∧ p.phisb b = (p.phi - b, -1) ∧ 0 < √(p.phi - b) ∧ 0 < p.phi - b := by
  have := h.bulk; have := h.phi
  have h0 : 0 < p.phi - b := by linarith
  exact ⟨by rw [P5.t1s, if_pos (by linarith)], by rw [P5.phisb, if_pos (by linarith)], Real.sqrt_pos.2 h0, h0⟩

theorem root5 (p : P5) {b : ℝ} (h : p.Ok b) : HasDerivAt (fun y => √(p.phi - y)) (-(1 / 2) / √(p.phi - b)) b := by
  obtain ⟨_, _, h0, h1⟩ := t1s5 p h
  refine (((hasDerivAt_id b).const_sub p.phi).sqrt h1.ne').congr_deriv ?_
  simp only [id]; field_simp

theorem A5 (p : P5) {b : ℝ} (h : p.Ok b) : (p.aa b).1 = p.A b ∧ 1 ≤ p.A b ∧ HasDerivAt p.A (p.aa b).2 b := by
  obtain ⟨e1, e2, h0, h1⟩ := t1s5 p h
  have hk := h.k1
  have hg : 0 < 1.744 + 0.8364 * (p.phi - b) - 1 := by norm_num; linarith
  have hg0 : (1.744 + 0.8364 * (p.phi - b) : ℝ) ≠ 0 := by norm_num at hg ⊢; linarith
  have ev : (p.aa b).1 = p.A b := by
    simp only [P5.aa, e1, e2, P5.A]
    norm_num at hg0 ⊢
    field_simp
  refine ⟨ev, ?_, ?_⟩
  · unfold P5.A
    have : 0 ≤ 1 - 1 / (1.744 + 0.8364 * (p.phi - b)) := by
      rw [sub_nonneg, div_le_one (by linarith)]; linarith
    have := mul_nonneg (div_nonneg hk (by positivity : 0 ≤ 2 * √(p.phi - b))) this
    linarith
  · have hr := root5 p h
    have hl : HasDerivAt (fun y => (1.744 + 0.8364 * (p.phi - y) : ℝ)) (-0.8364) b :=
      ((((hasDerivAt_id b).const_sub p.phi).const_mul 0.8364).const_add 1.744).congr_deriv (by norm_num)
    have hd := (((hasDerivAt_const b p.k1).div (hr.const_mul 2) (by positivity)).mul
      (((hasDerivAt_const b (1 : ℝ)).div hl hg0).const_sub 1)).const_add 1
    refine HasDerivAt.congr_deriv (f := p.A) hd ?_
    simp only [P5.aa, e1, e2, Pi.div_apply]
    have e3 : (1744 / 1000 + 8364 / 10000 * (p.phi - b) : ℝ) = 1.744 + 0.8364 * (p.phi - b) := by norm_num
    have e4 : (8364 / 10000 : ℝ) = 0.8364 := by norm_num
    rw [e3, e4]
    generalize hq : (1.744 + 0.8364 * (p.phi - b) : ℝ) = q at *
    generalize √(p.phi - b) = r at *
    have hq1 : q - 1 ≠ 0 := hg.ne'
    have e5 : (1 : ℝ) - 1 / q = (q - 1) / q := by field_simp
    rw [e5]
    field_simp
    ring

theorem vth5 (p : P5) {b : ℝ} (h : p.Ok b) (d : ℝ) : (p.von d b).v = p.Vth d b := by
  obtain ⟨e1, e2, _⟩ := t1s5 p h
  simp only [P5.von, e1, e2, P5.Vth]

theorem vth_path (p : P5) (d b : ℝ → ℝ) (d' b' t : ℝ) (hd : HasDerivAt d d' t) (hb : HasDerivAt b b' t) (h : p.Ok (b t)) :
    HasDerivAt (fun y => p.Vth (d y) (b y)) ((p.von (d t) (b t)).d * d' + (p.von (d t) (b t)).b * b') t := by
  obtain ⟨e1, e2, _⟩ := t1s5 p h
  have hr := (root5 p h).comp t hb
  have := (((hr.const_mul p.k1).const_add (p.vfb + p.phi)).sub ((hb.const_sub p.phi).const_mul p.k2)).sub
    (((hb.const_mul p.etaB).const_add p.eta0).mul hd)
  refine HasDerivAt.congr_deriv this ?_
  simp only [P5.von, e1]
  ring

theorem N_path5 (p : P5) (d b : ℝ → ℝ) (d' b' t : ℝ) (hd : HasDerivAt d d' t) (hb : HasDerivAt b b' t) (h : p.Ok (b t)) :
    p.n (d t) (b t) = p.N (d t) (b t) ∧
    HasDerivAt (fun y => p.N (d y) (b y)) (p.nD * d' - p.nB * (p.t1s (b t)).2 / ((p.t1s (b t)).1 * (p.t1s (b t)).1) * b') t := by
  obtain ⟨e1, e2, h0, _⟩ := t1s5 p h
  refine ⟨by simp only [P5.n, e1, P5.N], ?_⟩
  have hr := (root5 p h).comp t hb
  have := ((((hasDerivAt_const t p.nB).div hr h0.ne').const_add p.n0).add (hd.const_mul p.nD))
  refine HasDerivAt.congr_deriv this ?_
  simp only [e1, Function.comp_apply]
  field_simp
  ring

/-! ## Effective gate voltage -/

/-- weak inversion along a curve; `n`, `A`, `e` are values at the point -/
theorem weakV_path (p : P5) (u d b : ℝ → ℝ) (u' d' b' t : ℝ) (hu : HasDerivAt u u' t) (hd : HasDerivAt d d' t) (hb : HasDerivAt b b' t)
    (h : p.Ok (b t)) (hv : 0 < p.vtm) (hpos : 0 < d t) (hn : p.N (d t) (b t) ≠ 0) :
    HasDerivAt (fun y => p.weakV (u y) (d y) (b y))
      (p.weakV (u t) (d t) (b t) / (2 * p.N (d t) (b t) * p.vtm) *
        (u' + (p.N (d t) (b t) / (1 - Real.exp (-d t / p.vtm)) * Real.exp (-d t / p.vtm) - u t * p.nD / p.N (d t) (b t) + p.N (d t) (b t) * p.vtm * p.vofD) * d' +
          (p.N (d t) (b t) * p.vtm * p.vofB + u t * (p.nB * (p.t1s (b t)).2 / ((p.t1s (b t)).1 * (p.t1s (b t)).1)) / p.N (d t) (b t)
            + p.N (d t) (b t) * p.vtm * (1 / p.A (b t)) * (p.aa (b t)).2) * b')) t := by
  obtain ⟨_, hN⟩ := N_path5 p d b d' b' t hd hb h
  obtain ⟨_, hA1, hA⟩ := A5 p h
  have hA := hA.comp t hb
  have he1 : Real.exp (-d t / p.vtm) < 1 := (Real.exp_lt_exp.2 (div_neg_of_neg_of_pos (by linarith) hv)).trans_eq Real.exp_zero
  have hE : HasDerivAt (fun y => Real.exp (-d y / p.vtm)) (Real.exp (-d t / p.vtm) * (-d' / p.vtm)) t := ((hd.neg).div_const p.vtm).exp
  have hin : HasDerivAt (fun y => 2 * p.A (b y) * (1 - Real.exp (-d y / p.vtm)))
      (2 * ((p.aa (b t)).2 * b') * (1 - Real.exp (-d t / p.vtm)) + 2 * p.A (b t) * (Real.exp (-d t / p.vtm) * (d' / p.vtm))) t :=
    ((hA.const_mul 2).mul (hE.const_sub 1)).congr_deriv (by simp only [Function.comp_apply]; ring)
  have h0 : 0 < 2 * p.A (b t) * (1 - Real.exp (-d t / p.vtm)) := by
    have : 0 < 1 - Real.exp (-d t / p.vtm) := by linarith
    have : 0 < p.A (b t) := by linarith
    positivity
  have hs := (hin.sqrt h0.ne').const_mul p.vtm
  have hden : HasDerivAt (fun y => 2 * p.N (d y) (b y) * p.vtm) _ t := (hN.const_mul 2).mul_const p.vtm
  have hx := ((((hb.const_mul p.vofB).const_add p.vof0).add (hd.const_mul p.vofD)).div_const 2).add
    (hu.div hden (by positivity))
  refine HasDerivAt.congr_deriv (hs.mul hx.exp) ?_
  simp only [P5.weakV, Pi.add_apply, Pi.div_apply]
  have hq := Real.mul_self_sqrt h0.le
  have hq0 : 0 < √(2 * p.A (b t) * (1 - Real.exp (-d t / p.vtm))) := Real.sqrt_pos.2 h0
  generalize √(2 * p.A (b t) * (1 - Real.exp (-d t / p.vtm))) = q at *
  generalize Real.exp (-d t / p.vtm) = e at *
  generalize p.A (b t) = A at *
  generalize p.N (d t) (b t) = n at *
  generalize (p.aa (b t)).2 = A' at *
  generalize p.nB * (p.t1s (b t)).2 / ((p.t1s (b t)).1 * (p.t1s (b t)).1) = w at *
  generalize Real.exp ((p.vof0 + p.vofB * b t + p.vofD * d t) / 2 + u t / (2 * n * p.vtm)) = x at *
  have hA0 : A ≠ 0 := by linarith
  have he0 : 1 - e ≠ 0 := by linarith
  have key : (2 * (A' * b') * (1 - e) + 2 * A * (e * (d' / p.vtm))) / (2 * q) = q * (A' * b' / (2 * A) + e * (d' / p.vtm) / (2 * (1 - e))) := by
    rw [div_eq_iff (by positivity)]
    have : q * (A' * b' / (2 * A) + e * (d' / p.vtm) / (2 * (1 - e))) * (2 * q) = (q * q) * (A' * b' / A + e * (d' / p.vtm) / (1 - e)) := by
      field_simp
    rw [this, hq]
    field_simp
  rw [key]
  field_simp
  ring

/-- the cubic of the code (d_mos5.model:312-332) is the cubic with the values and slopes at the ends -/
theorem hermite_eq {l h y m u : ℝ} (hlh : l ≠ h) :
    (h * h * (((m - 1) * (h * (h * h) - l * (l * l)) + (3 * (h * h) - 3 * (l * l)) * (h - y) + (3 * (l * l) - m * (3 * (h * h))) * (h - l))
        + ((2 * l - 2 * h) * (h - y) + (1 - m) * (h * h - l * l) + (m * (2 * h) - 2 * l) * (h - l)) * (2 * h))
      + u * (((2 * l - m * (2 * h)) * (h * (h * h) - l * (l * l)) + (m * (3 * (h * h)) - 3 * (l * l)) * (h * h - l * l)
          + (2 * h * (3 * (l * l)) - 2 * l * (3 * (h * h))) * (h - y))
        + u * (((m - 1) * (h * (h * h) - l * (l * l)) + (3 * (h * h) - 3 * (l * l)) * (h - y) + (3 * (l * l) - m * (3 * (h * h))) * (h - l))
          + u * ((2 * l - 2 * h) * (h - y) + (1 - m) * (h * h - l * l) + (m * (2 * h) - 2 * l) * (h - l)))))
      * (1 / ((2 * l - 2 * h) * (h * (h * h) - l * (l * l)) + (3 * (h * h) - 3 * (l * l)) * (h * h - l * l)
          + (2 * h * (3 * (l * l)) - 2 * l * (3 * (h * h))) * (h - l)))
    = hermite l h y h m 1 u := by
  have hd : h - l ≠ 0 := sub_ne_zero.2 hlh.symm
  have e : (2 * l - 2 * h) * (h * (h * h) - l * (l * l)) + (3 * (h * h) - 3 * (l * l)) * (h * h - l * l)
          + (2 * h * (3 * (l * l)) - 2 * l * (3 * (h * h))) * (h - l) = (h - l) ^ 4 := by ring
  rw [e]
  unfold hermite
  simp only
  field_simp
  ring

/-- **The cubic.**  At both ends it has the values and slopes it was made for. -/
theorem hermite_ends {x0 x1 : ℝ} (h : x0 ≠ x1) (y0 y1 m0 m1 : ℝ) :
    hermite x0 x1 y0 y1 m0 m1 x0 = y0 ∧ hermite x0 x1 y0 y1 m0 m1 x1 = y1 ∧
    HasDerivAt (hermite x0 x1 y0 y1 m0 m1) m0 x0 ∧ HasDerivAt (hermite x0 x1 y0 y1 m0 m1) m1 x1 := by
  have hd : x1 - x0 ≠ 0 := sub_ne_zero.2 h.symm
  have hD : ∀ x, HasDerivAt (hermite x0 x1 y0 y1 m0 m1)
      ((6 * ((x - x0) / (x1 - x0)) ^ 2 - 6 * ((x - x0) / (x1 - x0))) * (1 / (x1 - x0)) * y0
        + (3 * ((x - x0) / (x1 - x0)) ^ 2 - 4 * ((x - x0) / (x1 - x0)) + 1) * m0
        + (6 * ((x - x0) / (x1 - x0)) - 6 * ((x - x0) / (x1 - x0)) ^ 2) * (1 / (x1 - x0)) * y1
        + (3 * ((x - x0) / (x1 - x0)) ^ 2 - 2 * ((x - x0) / (x1 - x0))) * m1) x := by
    intro x
    have hs : HasDerivAt (fun x => (x - x0) / (x1 - x0)) (1 / (x1 - x0)) x := ((hasDerivAt_id x).sub_const x0).div_const _
    have h2 := hs.pow 2
    have h3 := hs.pow 3
    have := (((((h3.const_mul 2).sub (h2.const_mul 3)).add_const 1).mul_const y0).add
      (((((h3.sub (h2.const_mul 2)).add hs).mul_const (x1 - x0)).mul_const m0))).add
      (((h2.const_mul 3).sub (h3.const_mul 2)).mul_const y1) |>.add (((h3.sub h2).mul_const (x1 - x0)).mul_const m1)
    refine HasDerivAt.congr_deriv this ?_
    simp
    field_simp
    ring
  refine ⟨by simp [hermite], by simp [hermite, hd]; ring, ?_, ?_⟩
  · exact (hD x0).congr_deriv (by simp)
  · exact (hD x1).congr_deriv (by simp [div_self hd]; ring)

/-- no guard of the code is active in weak inversion, `u` volts above threshold -/
structure P5.Calm (p : P5) (u d b : ℝ) : Prop where
  vtm : 0 < p.vtm
  drain : 0 < d
  swing : p.N d b ≠ 0
  top : d / p.vtm < 30
  tiny : 1 / 10 ^ 18 < 1 - Real.exp (-d / p.vtm)
  deep : -30 < u / (2 * p.N d b * p.vtm)

/-- what is needed of the gate for each range -/
def P5.Gate (p : P5) (r : Range) (u d b : ℝ) : Prop :=
  match r with
  | .high => True
  | .low => p.Calm u d b
  | .mid => p.Calm p.vglow d b ∧ p.vglow < p.vghigh

theorem calm_exp (p : P5) {u d b : ℝ} (h : p.Ok b) (c : p.Calm u d b) :
    p.n d b = p.N d b ∧ p.exp1 d = Real.exp (-d / p.vtm) ∧ max (1 - p.exp1 d) (1 / 10 ^ 18) = 1 - Real.exp (-d / p.vtm) ∧
    p.exp0 u d b = Real.exp ((p.vof0 + p.vofB * b + p.vofD * d) / 2 + u / (2 * p.N d b * p.vtm)) := by
  obtain ⟨e1, _⟩ := t1s5 p h
  have en : p.n d b = p.N d b := by simp only [P5.n, e1, P5.N]
  have e2 : p.exp1 d = Real.exp (-d / p.vtm) := by
    unfold P5.exp1
    rw [max_eq_left]
    rw [neg_div]; have := c.top; linarith
  refine ⟨en, e2, by rw [e2, max_eq_left c.tiny.le], ?_⟩
  unfold P5.exp0
  have e3 : u * (1 / 2 / (p.n d b * p.vtm)) = u / (2 * p.N d b * p.vtm) := by
    rw [en]; have := c.swing; have := c.vtm.ne'; field_simp
  rw [e3, max_eq_left c.deep.le, P5.vof]
  congr 1; ring

theorem vgeff5 (p : P5) (r : Range) {u d b : ℝ} (h : p.Ok b) (hr : p.Gate r u d b) : (p.vgeff r u d b).v = p.Vg r u d b := by
  obtain ⟨eA, _, _⟩ := A5 p h
  cases r with
  | high => rfl
  | low =>
    obtain ⟨_, _, e3, e4⟩ := calm_exp p h hr
    simp only [P5.vgeff, P5.Vg, P5.weakV, e3, e4, eA]
    ring
  | mid =>
    obtain ⟨e1, e2, e3, e4⟩ := calm_exp p h hr.1
    have hy : √(2 * (p.aa b).1 * (1 - p.exp1 d)) * p.vtm * p.exp0 p.vglow d b = p.weakV p.vglow d b := by
      rw [e4, e2, eA, P5.weakV]; ring
    have hm : p.weakV p.vglow d b * (1 / 2 / (p.N d b * p.vtm)) = p.weakV p.vglow d b / (2 * p.N d b * p.vtm) := by
      have := hr.1.swing; have := hr.1.vtm.ne'; field_simp
    simp only [P5.vgeff, P5.Vg, hy, e1, hm]
    exact hermite_eq hr.2.ne

/-- the sum over the coefficients (d_mos5.model:342-349) -/
noncomputable def spl (l h u y m : ℝ) : ℝ :=
  h * h * ((m * (h * (h * h) - l * (l * l) - 3 * (h * h) * (h - l)) + y * (3 * (l * l) - 3 * (h * h)))
      + (m * (2 * h * (h - l) - (h * h - l * l)) + y * (2 * h - 2 * l)) * (2 * h))
    + u * ((m * (3 * (h * h) * (h * h - l * l) - 2 * h * (h * (h * h) - l * (l * l))) + y * (2 * l * (3 * (h * h)) - 2 * h * (3 * (l * l))))
      + u * ((m * (h * (h * h) - l * (l * l) - 3 * (h * h) * (h - l)) + y * (3 * (l * l) - 3 * (h * h)))
        + u * (m * (2 * h * (h - l) - (h * h - l * l)) + y * (2 * h - 2 * l))))

theorem spl_add (l h u y z m n a c : ℝ) : spl l h u (y * a + z * c) (m * a + n * c) = spl l h u y m * a + spl l h u z n * c := by
  unfold spl; ring

theorem hermite_path {l h : ℝ} (hlh : l ≠ h) (y m u : ℝ → ℝ) (y' m' u' t : ℝ) (hy : HasDerivAt y y' t) (hm : HasDerivAt m m' t) (hu : HasDerivAt u u' t) :
    HasDerivAt (fun x => hermite l h (y x) h (m x) 1 (u x))
      ((((2 * l - m t * (2 * h)) * (h * (h * h) - l * (l * l)) + (m t * (3 * (h * h)) - 3 * (l * l)) * (h * h - l * l)
          + (2 * h * (3 * (l * l)) - 2 * l * (3 * (h * h))) * (h - y t))
        + u t * (2 * ((m t - 1) * (h * (h * h) - l * (l * l)) + (3 * (h * h) - 3 * (l * l)) * (h - y t) + (3 * (l * l) - m t * (3 * (h * h))) * (h - l))
          + 3 * u t * ((2 * l - 2 * h) * (h - y t) + (1 - m t) * (h * h - l * l) + (m t * (2 * h) - 2 * l) * (h - l))))
        * (1 / ((2 * l - 2 * h) * (h * (h * h) - l * (l * l)) + (3 * (h * h) - 3 * (l * l)) * (h * h - l * l)
          + (2 * h * (3 * (l * l)) - 2 * l * (3 * (h * h))) * (h - l))) * u'
      + spl l h (u t) y' m'
        * (1 / ((2 * l - 2 * h) * (h * (h * h) - l * (l * l)) + (3 * (h * h) - 3 * (l * l)) * (h * h - l * l)
          + (2 * h * (3 * (l * l)) - 2 * l * (3 * (h * h))) * (h - l)))) t := by
  have hd : h - l ≠ 0 := sub_ne_zero.2 hlh.symm
  have e : (2 * l - 2 * h) * (h * (h * h) - l * (l * l)) + (3 * (h * h) - 3 * (l * l)) * (h * h - l * l)
          + (2 * h * (3 * (l * l)) - 2 * l * (3 * (h * h))) * (h - l) = (h - l) ^ 4 := by ring
  rw [e]
  have hs : HasDerivAt (fun x => (u x - l) / (h - l)) (u' / (h - l)) t := (hu.sub_const l).div_const _
  have h2 := hs.pow 2
  have h3 := hs.pow 3
  have := (((((h3.const_mul 2).sub (h2.const_mul 3)).add_const 1).mul hy).add
      (((((h3.sub (h2.const_mul 2)).add hs).mul_const (h - l)).mul hm))).add
      (((h2.const_mul 3).sub (h3.const_mul 2)).mul_const h) |>.add (((h3.sub h2).mul_const (h - l)).mul_const 1)
  refine HasDerivAt.congr_deriv this ?_
  unfold spl
  simp
  field_simp
  ring

theorem vg_path (p : P5) (r : Range) (g d b : ℝ → ℝ) (g' d' b' t : ℝ) (hg : HasDerivAt g g' t) (hd : HasDerivAt d d' t) (hb : HasDerivAt b b' t)
    (h : p.Ok (b t)) (hr : p.Gate r (g t - p.Vth (d t) (b t)) (d t) (b t)) :
    HasDerivAt (fun y => p.Vg r (g y - p.Vth (d y) (b y)) (d y) (b y))
      ((p.vgeff r (g t - p.Vth (d t) (b t)) (d t) (b t)).g * g' + (p.vgeff r (g t - p.Vth (d t) (b t)) (d t) (b t)).d * d'
        + (p.vgeff r (g t - p.Vth (d t) (b t)) (d t) (b t)).b * b') t := by
  obtain ⟨eA, _, _⟩ := A5 p h
  have hu := hg.sub (vth_path p d b d' b' t hd hb h)
  cases r with
  | high =>
    refine HasDerivAt.congr_deriv hu ?_
    simp only [P5.vgeff]; ring
  | low =>
    obtain ⟨e1, e2, e3, e4⟩ := calm_exp p h hr
    have hq := weakV_path p _ d b _ d' b' t hu hd hb h hr.vtm hr.drain hr.swing
    refine HasDerivAt.congr_deriv hq ?_
    have hv := vgeff5 p .low h hr
    simp only [P5.vgeff, P5.Vg] at hv
    have hm : ∀ z, z * (1 / 2 / (p.N (d t) (b t) * p.vtm)) = z / (2 * p.N (d t) (b t) * p.vtm) := by
      intro z; have := hr.swing; have := hr.vtm.ne'; field_simp
    simp only [P5.vgeff, Pi.sub_apply]
    simp only [hv]
    simp only [e3]
    simp only [e1, hm, e2, eA]
    have := hr.swing
    have hT : (p.t1s (b t)).1 ≠ 0 := by obtain ⟨e1, _, h0, _⟩ := t1s5 p h; rw [e1]; exact h0.ne'
    have e5 : p.nB * (g t - p.Vth (d t) (b t)) / (p.N (d t) (b t) * (p.t1s (b t)).1 * (p.t1s (b t)).1) * (p.t1s (b t)).2
        = (g t - p.Vth (d t) (b t)) * (p.nB * (p.t1s (b t)).2 / ((p.t1s (b t)).1 * (p.t1s (b t)).1)) / p.N (d t) (b t) := by field_simp
    rw [e5]
    ring
  | mid =>
    obtain ⟨e1, e2, e3, e4⟩ := calm_exp p h hr.1
    have hlow := weakV_path p (fun _ => p.vglow) d b 0 d' b' t (hasDerivAt_const t _) hd hb h hr.1.vtm hr.1.drain hr.1.swing
    obtain ⟨_, hN⟩ := N_path5 p d b d' b' t hd hb h
    have hy : √(2 * (p.aa (b t)).1 * (1 - p.exp1 (d t))) * p.vtm * p.exp0 p.vglow (d t) (b t) = p.weakV p.vglow (d t) (b t) := by
      rw [e4, e2, eA, P5.weakV]; ring
    have hsw := hr.1.swing
    have hvt := hr.1.vtm.ne'
    have hm := hlow.div ((hN.const_mul 2).mul_const p.vtm) (by positivity)
    have hT : (p.t1s (b t)).1 ≠ 0 := by obtain ⟨e1, _, h0, _⟩ := t1s5 p h; rw [e1]; exact h0.ne'
    -- the slopes of the value and of the slope at the low end
    obtain ⟨τ, hτ⟩ : ∃ τ, τ = 1 / 2 / (p.N (d t) (b t) * p.vtm) := ⟨_, rfl⟩
    obtain ⟨T8, hT8⟩ : ∃ T8, T8 = (p.t1s (b t)).2 * p.nB / ((p.t1s (b t)).1 * (p.t1s (b t)).1 * p.N (d t) (b t)) := ⟨_, rfl⟩
    obtain ⟨m, hm0⟩ : ∃ m, m = p.weakV p.vglow (d t) (b t) * τ := ⟨_, rfl⟩
    obtain ⟨yd, hyd⟩ : ∃ yd, yd = m * (p.N (d t) (b t) * Real.exp (-d t / p.vtm) / (1 - Real.exp (-d t / p.vtm)) - p.vglow * p.nD / p.N (d t) (b t)
      + p.N (d t) (b t) * p.vtm * p.vofD) := ⟨_, rfl⟩
    obtain ⟨yb, hyb⟩ : ∃ yb, yb = m * (p.N (d t) (b t) * p.vtm * (1 / p.A (b t)) * (p.aa (b t)).2 + p.vglow * T8 + p.N (d t) (b t) * p.vtm * p.vofB) := ⟨_, rfl⟩
    have hm1 : p.weakV p.vglow (d t) (b t) / (2 * p.N (d t) (b t) * p.vtm) = m := by rw [hm0, hτ]; field_simp
    have hlow' := hlow.congr_deriv (g' := yd * d' + yb * b') (by
      rw [hm1, hyd, hyb, hT8]
      have : p.vglow * (p.nB * (p.t1s (b t)).2 / ((p.t1s (b t)).1 * (p.t1s (b t)).1)) / p.N (d t) (b t)
        = p.vglow * ((p.t1s (b t)).2 * p.nB / ((p.t1s (b t)).1 * (p.t1s (b t)).1 * p.N (d t) (b t))) := by field_simp
      rw [this]; ring)
    have hm' := hm.congr_deriv (g' := (τ * yd - m * p.nD / p.N (d t) (b t)) * d' + (τ * yb + m * T8) * b') (by
      rw [hlow.unique hlow', hm0, hT8, hτ]
      field_simp; ring)
    have hh := hermite_path hr.2.ne _ _ _ _ _ _ t hlow' hm' hu
    refine HasDerivAt.congr_deriv hh ?_
    rw [spl_add]
    simp only [P5.vgeff, Pi.sub_apply, Pi.div_apply]
    simp only [hy]
    simp only [e3]
    simp only [e1, e2, eA, ← hτ, ← hT8, ← hm0, ← hyd, ← hyb, hm1]
    change _ = _ * g' + (_ + spl p.vglow p.vghigh (g t - p.Vth (d t) (b t)) yd (τ * yd - m * p.nD / p.N (d t) (b t)) * _) * d'
      + (_ + spl p.vglow p.vghigh (g t - p.Vth (d t) (b t)) yb (τ * yb + m * T8) * _) * b'
    generalize spl p.vglow p.vghigh (g t - p.Vth (d t) (b t)) yd (τ * yd - m * p.nD / p.N (d t) (b t)) = s1
    generalize spl p.vglow p.vghigh (g t - p.Vth (d t) (b t)) yb (τ * yb + m * T8) = s2
    generalize 1 / ((2 * p.vglow - 2 * p.vghigh) * (p.vghigh * (p.vghigh * p.vghigh) - p.vglow * (p.vglow * p.vglow)) + (3 * (p.vghigh * p.vghigh) - 3 * (p.vglow * p.vglow)) * (p.vghigh * p.vghigh - p.vglow * p.vglow)
          + (2 * p.vghigh * (3 * (p.vglow * p.vglow)) - 2 * p.vglow * (3 * (p.vghigh * p.vghigh))) * (p.vghigh - p.vglow)) = dl
    ring

/-! ## From the effective gate voltage to the current -/

/-- `f` has the value of the jet at `t`, and moves with its slopes when the voltages move at `g'`, `d'`, `b'` -/
def Jet.Along (j : Jet) (f : ℝ → ℝ) (g' d' b' t : ℝ) : Prop := j.v = f t ∧ HasDerivAt f (j.g * g' + j.d * d' + j.b * b') t

theorem u0_path (p : P5) (w : Jet) (v b : ℝ → ℝ) (g' d' b' t : ℝ) (hw : w.Along v g' d' b' t) (hb : HasDerivAt b b' t)
    (hU : 1 / 5 < p.U0 (v t) (b t)) : (p.uvert w (b t)).Along (fun y => p.U0 (v y) (b y)) g' d' b' t := by
  obtain ⟨e, hv⟩ := hw
  constructor
  · simp only [P5.uvert, e]
    have : 1 + v t * (p.ua0 + p.uaB * b t + v t * (p.ub0 + p.ubB * b t)) = p.U0 (v t) (b t) := by unfold P5.U0; ring
    rw [this, max_eq_left hU.le]
  · have := (((hb.const_mul p.uaB).const_add p.ua0).mul hv).const_add 1 |>.add (((hb.const_mul p.ubB).const_add p.ub0).mul (hv.pow 2))
    refine HasDerivAt.congr_deriv this ?_
    simp only [P5.uvert, e]
    push_cast
    simp only [Pi.pow_apply]
    ring

theorem vc_path (p : P5) (w m : Jet) (v b : ℝ → ℝ) (g' d' b' t : ℝ) (hw : w.Along v g' d' b' t) (hb : HasDerivAt b b' t) (h : p.Ok (b t))
    (hm : m.Along (fun y => p.U0 (v y) (b y)) g' d' b' t) (hU : p.U0 (v t) (b t) ≠ 0) :
    (p.vc w m (b t)).Along (fun y => p.Vc (v y) (b y)) g' d' b' t := by
  obtain ⟨e, hv⟩ := hw
  obtain ⟨e', hm⟩ := hm
  obtain ⟨eA, hA1, hA⟩ := A5 p h
  have hA0 : p.A (b t) ≠ 0 := by linarith
  constructor
  · simp only [P5.vc, e, e', eA, P5.Vc]
    field_simp
  · have := (((hb.const_mul p.u1B).const_add p.u10).mul hv).div ((hA.comp t hb).mul hm) (mul_ne_zero hA0 hU)
    refine HasDerivAt.congr_deriv this ?_
    simp only [P5.vc, e, e', eA, Pi.mul_apply, Function.comp_apply]
    generalize p.U0 (v t) (b t) = U at *
    generalize p.A (b t) = A at *
    field_simp
    ring

theorem K5_pos {c : ℝ} (h : -(1 / 2) < c) : 0 < K5 c := by
  have : 0 ≤ √(1 + 2 * c) := Real.sqrt_nonneg _
  unfold K5; linarith

theorem k_path (c : Jet) (f : ℝ → ℝ) (g' d' b' t : ℝ) (hc : c.Along f g' d' b' t) (h0 : -(1 / 2) < f t) :
    (kk5 c.v).1 = K5 (f t) ∧ HasDerivAt (fun y => K5 (f y)) ((kk5 c.v).2 * (c.g * g' + c.d * d' + c.b * b')) t := by
  obtain ⟨e, hf⟩ := hc
  have h1 : 0 < √(1 + 2 * f t) := Real.sqrt_pos.2 (by linarith)
  refine ⟨by rw [e, kk5, K5]; ring, ?_⟩
  have := ((hf.const_add 1).add (((hf.const_mul 2).const_add 1).sqrt (by linarith))).div_const 2
  refine HasDerivAt.congr_deriv this ?_
  rw [e, kk5]
  field_simp

theorem vsat5_path (p : P5) (w c : Jet) (v b : ℝ → ℝ) (g' d' b' t : ℝ) (hw : w.Along v g' d' b' t) (hb : HasDerivAt b b' t) (h : p.Ok (b t))
    (hc : c.Along (fun y => p.Vc (v y) (b y)) g' d' b' t) (h0 : -(1 / 2) < p.Vc (v t) (b t)) (hs : 1 / 10 ^ 18 < p.Vsat (v t) (b t)) :
    (p.vdsat w c (b t)).Along (fun y => p.Vsat (v y) (b y)) g' d' b' t := by
  obtain ⟨e, hv⟩ := hw
  obtain ⟨ek, hk⟩ := k_path c _ g' d' b' t hc h0
  obtain ⟨eA, hA1, hA⟩ := A5 p h
  have hA0 : p.A (b t) ≠ 0 := by linarith
  have hK := K5_pos h0
  have hK0 : 0 < √(K5 (p.Vc (v t) (b t))) := Real.sqrt_pos.2 (by linarith)
  have hKK := Real.mul_self_sqrt (by linarith : 0 ≤ K5 (p.Vc (v t) (b t)))
  have ev : max (w.v * (1 / (p.aa (b t)).1 / √(kk5 c.v).1)) (1 / 10 ^ 18) = p.Vsat (v t) (b t) := by
    have : w.v * (1 / (p.aa (b t)).1 / √(kk5 c.v).1) = p.Vsat (v t) (b t) := by
      rw [e, eA, ek, P5.Vsat]; field_simp
    rw [this, max_eq_left hs.le]
  refine ⟨ev, ?_⟩
  have := hv.div ((hA.comp t hb).mul (hk.sqrt (by linarith))) (mul_ne_zero hA0 hK0.ne')
  refine HasDerivAt.congr_deriv this ?_
  simp only [P5.vdsat]
  rw [ev, eA, ek]
  simp only [P5.Vsat, Pi.mul_apply, Function.comp_apply]
  generalize (kk5 c.v).2 = k'
  have hK1 : K5 (p.Vc (v t) (b t)) ≠ 0 := by linarith
  generalize K5 (p.Vc (v t) (b t)) = K at *
  generalize √K = q at *
  rw [← hKK]
  generalize p.A (b t) = A at *
  have := hK0.ne'
  field_simp
  ring

theorem tanh_exp (x : ℝ) : Real.tanh x = (Real.exp x * Real.exp x - 1) / (Real.exp x * Real.exp x + 1) := by
  rw [Real.tanh_eq, Real.exp_neg]
  have := (Real.exp_pos x).ne'
  field_simp

theorem tanh_path (f : ℝ → ℝ) (f' t : ℝ) (hf : HasDerivAt f f' t) :
    HasDerivAt (fun y => Real.tanh (f y))
      (4 * (Real.exp (f t) * Real.exp (f t)) / ((Real.exp (f t) * Real.exp (f t) + 1) * (Real.exp (f t) * Real.exp (f t) + 1)) * f') t := by
  have hE := hf.exp
  have e : (fun y => Real.tanh (f y)) = fun y => (Real.exp (f y) * Real.exp (f y) - 1) / (Real.exp (f y) * Real.exp (f y) + 1) := by
    funext y; exact tanh_exp _
  rw [e]
  have hx := Real.exp_pos (f t)
  refine HasDerivAt.congr_deriv (((hE.mul hE).sub_const 1).div ((hE.mul hE).add_const 1) (by show Real.exp (f t) * Real.exp (f t) + 1 ≠ 0; positivity)) ?_
  simp only [Pi.mul_apply]
  field_simp
  ring

theorem gain_path (p : P5) (s : Jet) (x g d b : ℝ → ℝ) (g' d' b' t : ℝ) (hs : s.Along x g' d' b' t) (hg : HasDerivAt g g' t)
    (hd : HasDerivAt d d' t) (hb : HasDerivAt b b' t) (hx : x t ≠ 0) (h30 : (p.beta20 + p.beta2B * b t + p.beta2G * g t) * d t / x t < 30) :
    (p.beta s (g t) (d t) (b t)).Along (fun y => p.Gain (x y) (g y) (d y) (b y)) g' d' b' t := by
  obtain ⟨e, hx'⟩ := hs
  have e0 : min (d t * (p.beta20 + p.beta2B * b t + p.beta2G * g t) / x t) 30 = (p.beta20 + p.beta2B * b t + p.beta2G * g t) * d t / x t := by
    rw [mul_comm (d t), min_eq_left h30.le]
  constructor
  · simp only [P5.beta, e, e0, P5.Gain, tanh_exp]
    ring
  · have hg0 := (hb.const_mul p.beta0B).const_add p.beta0
    have hg2 := ((hb.const_mul p.beta2B).const_add p.beta20).add (hg.const_mul p.beta2G)
    have hg3 := ((hb.const_mul p.beta3B).const_add p.beta30).add (hg.const_mul p.beta3G)
    have hg4 := ((hb.const_mul p.beta4B).const_add p.beta40).add (hg.const_mul p.beta4G)
    have hg1 := ((((hb.const_mul p.betasB).const_add p.betas0).sub hg0).sub (hg3.mul_const p.vdd)).add (hg4.mul_const (p.vdd ^ 2))
    have hT := tanh_path _ _ t ((hg2.mul hd).div hx' hx)
    have := ((hg0.add (hg1.mul hT)).add (hg3.mul hd)).sub (hg4.mul (hd.pow 2))
    refine HasDerivAt.congr_deriv this ?_
    have et : Real.tanh ((p.beta20 + p.beta2B * b t + p.beta2G * g t) * d t / x t) = _ := tanh_exp _
    simp only [P5.beta, e, e0, Pi.mul_apply, Pi.div_apply, Pi.add_apply, Pi.sub_apply, Pi.pow_apply, et]
    push_cast
    generalize hz : Real.exp ((p.beta20 + p.beta2B * b t + p.beta2G * g t) * d t / x t) = z
    generalize 4 * (z * z) / ((z * z + 1) * (z * z + 1)) = S
    generalize (z * z - 1) / (z * z + 1) = T
    field_simp
    ring

theorem hot_path (p : P5) (s : Jet) (x d b : ℝ → ℝ) (g' d' b' t : ℝ) (hs : s.Along x g' d' b' t)
    (hd : HasDerivAt d d' t) (hb : HasDerivAt b b' t) (hx : x t < d t) (h30 : (p.bi0 + p.biB * b t) / (d t - x t) < 30) (ha : p.ai0 ≠ 0) :
    (p.fr s (d t) (b t)).Along (fun y => p.Hot (x y) (d y) (b y)) g' d' b' t := by
  obtain ⟨e, hx'⟩ := hs
  have h0 : d t - x t ≠ 0 := by linarith
  have e0 : min ((p.bi0 + p.biB * b t) / (d t - x t)) 30 = (p.bi0 + p.biB * b t) / (d t - x t) := min_eq_left h30.le
  constructor
  · simp only [P5.fr, e, e0, P5.Hot, if_neg ha]
  · simp only [P5.Hot, if_neg ha]
    have := ((((hb.const_mul p.aiB).const_add p.ai0).mul (((((hb.const_mul p.biB).const_add p.bi0).div (hd.sub hx') h0).neg).exp)).const_add 1)
    refine HasDerivAt.congr_deriv this ?_
    simp only [P5.fr, e, e0, Pi.div_apply, Pi.neg_apply, Pi.sub_apply]
    generalize Real.exp (-((p.bi0 + p.biB * b t) / (d t - x t))) = z
    field_simp
    ring

theorem triode_path (p : P5) (w m s e : Jet) (v g d b : ℝ → ℝ) (g' d' b' t : ℝ) (hw : w.Along v g' d' b' t)
    (hm : m.Along (fun y => p.U0 (v y) (b y)) g' d' b' t) (hs : s.Along (fun y => p.Vsat (v y) (b y)) g' d' b' t)
    (he : e.Along (fun y => p.Gain (p.Vsat (v y) (b y)) (g y) (d y) (b y)) g' d' b' t) (hd : HasDerivAt d d' t) (hb : HasDerivAt b b' t)
    (h : p.Ok (b t)) (hx : p.Vsat (v t) (b t) ≠ 0) (hB : p.Gain (p.Vsat (v t) (b t)) (g t) (d t) (b t) ≠ 0)
    (hU : 1 / 2 < p.U0 (v t) (b t) + (p.u10 + p.u1B * b t) * (1 - p.u1D * (d t / p.Vsat (v t) (b t) - 1) ^ 2) * d t) :
    (p.triode w m s e (d t) (b t)).Along (fun y => p.Itri (v y) (g y) (d y) (b y)) g' d' b' t := by
  obtain ⟨ew, hw⟩ := hw
  obtain ⟨em, hm⟩ := hm
  obtain ⟨es, hs⟩ := hs
  obtain ⟨ee, he⟩ := he
  obtain ⟨eA, hA1, hA⟩ := A5 p h
  have hA := hA.comp t hb
  have eU : max (p.U0 (v t) (b t) + (p.u10 + p.u1B * b t) * (1 - p.u1D * (d t / p.Vsat (v t) (b t) - 1) * (d t / p.Vsat (v t) (b t) - 1)) * d t) (1 / 2)
      = p.U0 (v t) (b t) + (p.u10 + p.u1B * b t) * (1 - p.u1D * (d t / p.Vsat (v t) (b t) - 1) ^ 2) * d t := by
    rw [show p.u1D * (d t / p.Vsat (v t) (b t) - 1) * (d t / p.Vsat (v t) (b t) - 1) = p.u1D * (d t / p.Vsat (v t) (b t) - 1) ^ 2 by ring]
    exact max_eq_left hU.le
  have hU0 : p.U0 (v t) (b t) + (p.u10 + p.u1B * b t) * (1 - p.u1D * (d t / p.Vsat (v t) (b t) - 1) ^ 2) * d t ≠ 0 := by linarith
  constructor
  · simp only [P5.triode, ew, em, es, ee, eA, eU, P5.Itri]
    field_simp
  · have hdr := ((hd.div hs hx).sub_const 1).pow 2
    have hden := hm.add (((((hb.const_mul p.u1B).const_add p.u10).mul ((hdr.const_mul p.u1D).const_sub 1))).mul hd)
    have := (((he.mul (hw.sub ((hA.mul hd).div_const 2))).mul hd)).div hden hU0
    refine HasDerivAt.congr_deriv this ?_
    simp only [P5.triode, ew, em, es, ee, eA, eU, Pi.mul_apply, Pi.div_apply, Pi.add_apply, Pi.sub_apply, Pi.pow_apply, Function.comp_apply]
    generalize hUg : p.U0 (v t) (b t) + (p.u10 + p.u1B * b t) * (1 - p.u1D * (d t / p.Vsat (v t) (b t) - 1) ^ 2) * d t = U at *
    generalize p.Gain (p.Vsat (v t) (b t)) (g t) (d t) (b t) = B at *
    generalize p.Vsat (v t) (b t) = X at *
    generalize p.A (b t) = A at *
    generalize (p.aa (b t)).2 = A' at *
    clear hUg eU
    have e1 : ∀ z, B * (1 / U) * z / (B * (1 / U)) = z := by intro z; field_simp
    rw [e1]
    push_cast
    field_simp
    ring

theorem sat_path (p : P5) (w m c s e : Jet) (v g d b : ℝ → ℝ) (g' d' b' t : ℝ) (hw : w.Along v g' d' b' t)
    (hm : m.Along (fun y => p.U0 (v y) (b y)) g' d' b' t) (hc : c.Along (fun y => p.Vc (v y) (b y)) g' d' b' t)
    (hs : s.Along (fun y => p.Vsat (v y) (b y)) g' d' b' t)
    (he : e.Along (fun y => p.Gain (p.Vsat (v y) (b y)) (g y) (d y) (b y)) g' d' b' t) (hd : HasDerivAt d d' t) (hb : HasDerivAt b b' t)
    (h : p.Ok (b t)) (hB : p.Gain (p.Vsat (v t) (b t)) (g t) (d t) (b t) ≠ 0) (hU : p.U0 (v t) (b t) ≠ 0) (h0 : -(1 / 2) < p.Vc (v t) (b t))
    (hx : p.Vsat (v t) (b t) < d t) (h30 : p.ai0 ≠ 0 → (p.bi0 + p.biB * b t) / (d t - p.Vsat (v t) (b t)) < 30) :
    (p.sat w m c s e (d t) (b t)).Along (fun y => p.Isat (v y) (g y) (d y) (b y)) g' d' b' t := by
  have hF : p.ai0 ≠ 0 → (p.fr s (d t) (b t)).Along (fun y => p.Hot (p.Vsat (v y) (b y)) (d y) (b y)) g' d' b' t := fun ha =>
    hot_path p s _ d b g' d' b' t hs hd hb hx (h30 ha) ha
  obtain ⟨ew, hw⟩ := hw
  obtain ⟨em, hm⟩ := hm
  obtain ⟨ek, hk⟩ := k_path c _ g' d' b' t hc h0
  obtain ⟨ee, he⟩ := he
  obtain ⟨eA, hA1, hA⟩ := A5 p h
  have hA := hA.comp t hb
  have hA0 : p.A (b t) ≠ 0 := by linarith
  have hK := K5_pos h0
  have hK0 : K5 (p.Vc (v t) (b t)) ≠ 0 := by linarith
  have hcore := (he.mul (hw.pow 2)).div ((((hA.const_mul 2).mul hk)).mul hm)
    (by show 2 * p.A (b t) * K5 (p.Vc (v t) (b t)) * p.U0 (v t) (b t) ≠ 0; positivity)
  have e1 : ∀ z B U : ℝ, B ≠ 0 → U ≠ 0 → B * (1 / U) * z / (B * (1 / U)) = z := by intro z B U h1 h2; field_simp
  by_cases ha : p.ai0 = 0
  · constructor
    · simp only [P5.sat, if_neg (not_not.2 ha), ew, em, ek, ee, eA, P5.Isat, P5.Hot, if_pos ha]
      field_simp
    · simp only [P5.Isat, P5.Hot, if_pos ha, mul_one]
      refine HasDerivAt.congr_deriv hcore ?_
      simp only [P5.sat, if_neg (not_not.2 ha), ew, em, ek, ee, eA, Pi.mul_apply, Pi.pow_apply, Function.comp_apply, e1 _ _ _ hB hU]
      push_cast
      generalize K5 (p.Vc (v t) (b t)) = K at *
      generalize p.Gain (p.Vsat (v t) (b t)) (g t) (d t) (b t) = B at *
      generalize p.U0 (v t) (b t) = U at *
      generalize p.A (b t) = A at *
      field_simp
      ring
  · obtain ⟨ef, hf⟩ := hF ha
    constructor
    · simp only [P5.sat, if_pos ha, ew, em, ek, ee, eA, P5.Isat, ef]
      field_simp
    · refine HasDerivAt.congr_deriv (hcore.mul hf) ?_
      simp only [P5.sat, if_pos ha, ew, em, ek, ee, eA, Pi.mul_apply, Pi.div_apply, Pi.pow_apply, Function.comp_apply, e1 _ _ _ hB hU, ef]
      push_cast
      generalize K5 (p.Vc (v t) (b t)) = K at *
      generalize p.Gain (p.Vsat (v t) (b t)) (g t) (d t) (b t) = B at *
      generalize p.U0 (v t) (b t) = U at *
      generalize p.A (b t) = A at *
      generalize p.Hot (p.Vsat (v t) (b t)) (d t) (b t) = H at *
      field_simp
      ring

theorem weak_path (p : P5) (s e : Jet) (g d b : ℝ → ℝ) (g' d' b' t : ℝ) (hot : Bool)
    (hs : s.Along (fun y => p.Vsat (p.weakV (g y - p.Vth (d y) (b y)) (d y) (b y)) (b y)) g' d' b' t)
    (he : e.Along (fun y => p.Gain (p.Vsat (p.weakV (g y - p.Vth (d y) (b y)) (d y) (b y)) (b y)) (g y) (d y) (b y)) g' d' b' t)
    (hg : HasDerivAt g g' t) (hd : HasDerivAt d d' t) (hb : HasDerivAt b b' t) (h : p.Ok (b t))
    (hc : p.Calm (g t - p.Vth (d t) (b t)) (d t) (b t))
    (hB : p.Gain (p.Vsat (p.weakV (g t - p.Vth (d t) (b t)) (d t) (b t)) (b t)) (g t) (d t) (b t) ≠ 0)
    (h30 : hot = true → p.Vsat (p.weakV (g t - p.Vth (d t) (b t)) (d t) (b t)) (b t) < d t ∧ p.ai0 ≠ 0 ∧
      (p.bi0 + p.biB * b t) / (d t - p.Vsat (p.weakV (g t - p.Vth (d t) (b t)) (d t) (b t)) (b t)) < 30)
    (hcold : hot = false → d t < p.Vsat (p.weakV (g t - p.Vth (d t) (b t)) (d t) (b t)) (b t) ∨ p.ai0 = 0) :
    (p.weak s e (g t - p.Vth (d t) (b t)) (d t) (b t)).Along (fun y => p.Iweak hot (g y - p.Vth (d y) (b y)) (g y) (d y) (b y)) g' d' b' t := by
  obtain ⟨e1, e2, _, e4⟩ := calm_exp p h hc
  have hN0 := hc.swing
  have hvt := hc.vtm.ne'
  have hT : (p.t1s (b t)).1 ≠ 0 := by obtain ⟨e1, _, h0, _⟩ := t1s5 p h; rw [e1]; exact h0.ne'
  obtain ⟨F, hF, eF⟩ : ∃ F : Jet, F.Along (fun y => if hot then p.Hot (p.Vsat (p.weakV (g y - p.Vth (d y) (b y)) (d y) (b y)) (b y)) (d y) (b y) else 1) g' d' b' t ∧
      (if s.v < d t ∧ p.ai0 ≠ 0 then p.fr s (d t) (b t) else ⟨1, 0, 0, 0⟩) = F := by
    refine ⟨_, ?_, rfl⟩
    cases hot
    · rw [if_neg (by rw [hs.1]; rintro ⟨h1, h2⟩; rcases hcold rfl with h3 | h3; exacts [absurd h1 (not_lt.2 h3.le), h2 h3])]
      exact ⟨rfl, by simpa using hasDerivAt_const t (1 : ℝ)⟩
    · obtain ⟨h1, h2, h3⟩ := h30 rfl
      rw [if_pos ⟨by rw [hs.1]; exact h1, h2⟩]
      exact hot_path p s _ d b g' d' b' t hs hd hb h1 h3 h2
  obtain ⟨ef, hf⟩ := hF
  obtain ⟨ee, he⟩ := he
  obtain ⟨_, hN⟩ := N_path5 p d b d' b' t hd hb h
  have hu := hg.sub (vth_path p d b d' b' t hd hb h)
  have hx := (((((hb.const_mul p.vofB).const_add p.vof0).add (hd.const_mul p.vofD))).add (hu.div (hN.mul_const p.vtm) (by positivity))).exp
  have hE := (((hd.neg).div_const p.vtm).exp).const_sub 1
  have e5 : p.exp0 (g t - p.Vth (d t) (b t)) (d t) (b t) * p.exp0 (g t - p.Vth (d t) (b t)) (d t) (b t)
      = Real.exp (p.vof0 + p.vofB * b t + p.vofD * d t + (g t - p.Vth (d t) (b t)) / (p.N (d t) (b t) * p.vtm)) := by
    rw [e4, ← Real.exp_add]; congr 1; field_simp; ring
  have e6 : ∀ z B : ℝ, B ≠ 0 → B * z / B = z := by intro z B h1; field_simp
  constructor
  · simp only [P5.weak, eF, ef, ee, e2, e5, P5.Iweak]
    ring
  · have := ((((he.mul_const (p.vtm ^ 2)).mul hx).mul hE)).mul hf
    refine HasDerivAt.congr_deriv this ?_
    simp only [P5.weak, eF]
    simp only [ef, ee, e2, e5, e1, Pi.mul_apply, Pi.add_apply, Pi.div_apply, Pi.sub_apply, Pi.neg_apply]
    generalize Real.exp (p.vof0 + p.vofB * b t + p.vofD * d t + (g t - p.Vth (d t) (b t)) / (p.N (d t) (b t) * p.vtm)) = X at *
    generalize p.Gain (p.Vsat (p.weakV (g t - p.Vth (d t) (b t)) (d t) (b t)) (b t)) (g t) (d t) (b t) = B at *
    generalize (if hot = true then p.Hot (p.Vsat (p.weakV (g t - p.Vth (d t) (b t)) (d t) (b t)) (b t)) (d t) (b t) else 1) = H at *
    generalize g t - p.Vth (d t) (b t) = u at *
    generalize p.N (d t) (b t) = n at *
    generalize Real.exp (-d t / p.vtm) = E at *
    field_simp
    ring

/-! ## The whole -/

/-- Specification: the law in the range `r` of the gate, below or above the saturation voltage -/
noncomputable def P5.Law (p : P5) (r : Range) (sat : Bool) (g d b : ℝ) : ℝ :=
  match r with
  | .low => p.Iweak sat (g - p.Vth d b) g d b
  | r => if sat then p.Isat (p.Vg r (g - p.Vth d b) d b) g d b else p.Itri (p.Vg r (g - p.Vth d b) d b) g d b

/-- where the gate must be for the range -/
def P5.InRange (p : P5) (r : Range) (u : ℝ) : Prop :=
  match r with
  | .high => (p.vghigh < u ∨ p.n0 = 0) ∧ p.vglow < u
  | .mid => p.n0 ≠ 0 ∧ p.vglow < u ∧ u < p.vghigh
  | .low => p.n0 ≠ 0 ∧ u < p.vglow ∧ u < p.vghigh

/-- the point is on one side of saturation, and away from every limit and guard of the code -/
structure P5.Clear (p : P5) (r : Range) (sat : Bool) (g d b : ℝ) : Prop where
  ok : p.Ok b
  limB : 2 * p.vbb < b
  limG : g < 2 * p.vgg
  limD : d < 2 * p.vdd
  gate : p.Gate r (g - p.Vth d b) d b
  pos : 0 < p.Vg r (g - p.Vth d b) d b
  mob : 1 / 5 < p.U0 (p.Vg r (g - p.Vth d b) d b) b
  crit : -(1 / 2) < p.Vc (p.Vg r (g - p.Vth d b) d b) b
  tiny : 1 / 10 ^ 18 < p.Vsat (p.Vg r (g - p.Vth d b) d b) b
  tanh : (p.beta20 + p.beta2B * b + p.beta2G * g) * d / p.Vsat (p.Vg r (g - p.Vth d b) d b) b < 30
  gain : p.Gain (p.Vsat (p.Vg r (g - p.Vth d b) d b) b) g d b ≠ 0
  above : sat = true → p.Vsat (p.Vg r (g - p.Vth d b) d b) b < d ∧
    (p.ai0 ≠ 0 → (p.bi0 + p.biB * b) / (d - p.Vsat (p.Vg r (g - p.Vth d b) d b) b) < 30)
  below : sat = false → d < p.Vsat (p.Vg r (g - p.Vth d b) d b) b ∧
    1 / 2 < p.U0 (p.Vg r (g - p.Vth d b) d b) b + (p.u10 + p.u1B * b) * (1 - p.u1D * (d / p.Vsat (p.Vg r (g - p.Vth d b) d b) b - 1) ^ 2) * d
  floor : 1 / 10 ^ 50 < p.Law r sat g d b

/-- the point is also inside the range of the gate -/
structure P5.Inside (p : P5) (r : Range) (sat : Bool) (g d b : ℝ) : Prop extends p.Clear r sat g d b where
  range : p.InRange r (g - p.Vth d b)

/-- the jets of the code at a clear point are those of the law along every curve, and `core` gives that of the current -/
theorem clear_jets (p : P5) (r : Range) (sat : Bool) (g d b : ℝ → ℝ) (g' d' b' t : ℝ) (hg : HasDerivAt g g' t) (hd : HasDerivAt d d' t)
    (hb : HasDerivAt b b' t) (h : p.Clear r sat (g t) (d t) (b t)) :
    HasDerivAt (fun y => p.Vth (d y) (b y)) ((p.von (d t) (b t)).d * d' + (p.von (d t) (b t)).b * b') t ∧
    ∃ w m c s e o : Jet, w.Along (fun y => p.Vg r (g y - p.Vth (d y) (b y)) (d y) (b y)) g' d' b' t ∧
      m.Along (fun y => p.U0 (p.Vg r (g y - p.Vth (d y) (b y)) (d y) (b y)) (b y)) g' d' b' t ∧
      c.Along (fun y => p.Vc (p.Vg r (g y - p.Vth (d y) (b y)) (d y) (b y)) (b y)) g' d' b' t ∧
      s.Along (fun y => p.Vsat (p.Vg r (g y - p.Vth (d y) (b y)) (d y) (b y)) (b y)) g' d' b' t ∧
      e.Along (fun y => p.Gain (p.Vsat (p.Vg r (g y - p.Vth (d y) (b y)) (d y) (b y)) (b y)) (g y) (d y) (b y)) g' d' b' t ∧
      o.Along (fun y => p.Law r sat (g y) (d y) (b y)) g' d' b' t ∧
      (p.InRange r (g t - p.Vth (d t) (b t)) → p.core (g t) (d t) (b t) = some (o, s.v)) := by
  have hw : (p.vgeff r (g t - p.Vth (d t) (b t)) (d t) (b t)).Along (fun y => p.Vg r (g y - p.Vth (d y) (b y)) (d y) (b y)) g' d' b' t :=
    ⟨vgeff5 p r h.ok h.gate, vg_path p r g d b g' d' b' t hg hd hb h.ok h.gate⟩
  obtain ⟨w, ew⟩ : ∃ w, p.vgeff r (g t - p.Vth (d t) (b t)) (d t) (b t) = w := ⟨_, rfl⟩
  rw [ew] at hw
  have hm := u0_path p _ _ b g' d' b' t hw hb h.mob
  obtain ⟨m, em⟩ : ∃ m, p.uvert w (b t) = m := ⟨_, rfl⟩
  rw [em] at hm
  have hU0 : p.U0 (p.Vg r (g t - p.Vth (d t) (b t)) (d t) (b t)) (b t) ≠ 0 := by have := h.mob; linarith
  have hc := vc_path p _ _ _ b g' d' b' t hw hb h.ok hm hU0
  obtain ⟨c, ec⟩ : ∃ c, p.vc w m (b t) = c := ⟨_, rfl⟩
  rw [ec] at hc
  have hs := vsat5_path p _ _ _ b g' d' b' t hw hb h.ok hc h.crit h.tiny
  obtain ⟨s, es⟩ : ∃ s, p.vdsat w c (b t) = s := ⟨_, rfl⟩
  rw [es] at hs
  have hs0 : 0 < p.Vsat (p.Vg r (g t - p.Vth (d t) (b t)) (d t) (b t)) (b t) := lt_trans (by norm_num) h.tiny
  have he := gain_path p _ _ g d b g' d' b' t hs hg hd hb hs0.ne' h.tanh
  obtain ⟨e, ee⟩ : ∃ e, p.beta s (g t) (d t) (b t) = e := ⟨_, rfl⟩
  rw [ee] at he
  refine ⟨vth_path p d b d' b' t hd hb h.ok, w, m, c, s, e, (if r = .low then p.weak s e (g t - p.Vth (d t) (b t)) (d t) (b t)
    else if sat then p.sat w m c s e (d t) (b t) else p.triode w m s e (d t) (b t)), hw, hm, hc, hs, he, ?_, ?_⟩
  · have strong : r ≠ .low → (if sat then p.sat w m c s e (d t) (b t) else p.triode w m s e (d t) (b t)).Along
        (fun y => if sat then p.Isat (p.Vg r (g y - p.Vth (d y) (b y)) (d y) (b y)) (g y) (d y) (b y)
          else p.Itri (p.Vg r (g y - p.Vth (d y) (b y)) (d y) (b y)) (g y) (d y) (b y)) g' d' b' t := by
      intro _
      cases sat
      · simp only [Bool.false_eq_true, if_false]
        exact triode_path p _ _ _ _ _ g d b g' d' b' t hw hm hs he hd hb h.ok hs0.ne' h.gain (h.below rfl).2
      · simp only [if_true]
        exact sat_path p _ _ _ _ _ _ g d b g' d' b' t hw hm hc hs he hd hb h.ok h.gain hU0 h.crit (h.above rfl).1 (h.above rfl).2
    cases r with
    | high => exact strong (by simp)
    | mid => exact strong (by simp)
    | low =>
      simp only [if_true, P5.Law]
      by_cases hh : sat = true ∧ p.ai0 ≠ 0
      · exact weak_path p _ _ g d b g' d' b' t sat hs he hg hd hb h.ok h.gate h.gain
          (fun k => ⟨(h.above k).1, hh.2, (h.above k).2 hh.2⟩) (fun k => by rw [hh.1] at k; cases k)
      · have ei : (fun y => p.Iweak sat (g y - p.Vth (d y) (b y)) (g y) (d y) (b y)) = fun y => p.Iweak false (g y - p.Vth (d y) (b y)) (g y) (d y) (b y) := by
          funext y
          cases sat
          · rfl
          · have ha : p.ai0 = 0 := by by_contra k; exact hh ⟨rfl, k⟩
            simp [P5.Iweak, P5.Hot, ha]
        rw [ei]
        refine weak_path p _ _ g d b g' d' b' t false hs he hg hd hb h.ok h.gate h.gain (fun k => by cases k) (fun _ => ?_)
        cases sat
        · exact Or.inl (h.below rfl).1
        · exact Or.inr (by by_contra k; exact hh ⟨rfl, k⟩)
  · intro hr
    have er : p.range (g t - p.Vth (d t) (b t)) = r := by
      unfold P5.range
      cases r with
      | high => exact if_pos (hr.1.imp le_of_lt id)
      | mid => rw [if_neg (by rintro (k | k); exacts [absurd hr.2.2 (not_lt.2 k), hr.1 k]), if_neg (not_le.2 hr.2.1)]
      | low => rw [if_neg (by rintro (k | k); exacts [absurd hr.2.2 (not_lt.2 k), hr.1 k]), if_pos hr.2.1.le]
    unfold P5.core
    simp only [vth5 p h.ok, er, ew, em, ec, es, ee]
    rw [if_pos (by rw [hw.1]; exact h.pos)]
    by_cases hl : r = .low
    · subst hl
      rw [if_neg (not_lt.2 hr.2.1.le), if_neg (by decide), if_pos rfl]
    · have hvl : p.vglow < g t - p.Vth (d t) (b t) := by
        cases r with
        | high => exact hr.2
        | mid => exact hr.2.1
        | low => exact absurd rfl hl
      rw [if_pos hvl, if_neg hl]
      cases sat
      · rw [if_pos (by rw [hs.1]; exact (h.below rfl).1.le)]; rfl
      · rw [if_neg (by rw [hs.1]; exact not_le.2 (h.above rfl).1)]; rfl

open Filter Topology in
/-- what is clear stays clear for a while -/
theorem clear_near (p : P5) (r : Range) (sat : Bool) (g d b : ℝ → ℝ) (g' d' b' t : ℝ) (hg : HasDerivAt g g' t) (hd : HasDerivAt d d' t)
    (hb : HasDerivAt b b' t) (h : p.Clear r sat (g t) (d t) (b t)) : ∀ᶠ y in 𝓝 t, p.Clear r sat (g y) (d y) (b y) := by
  obtain ⟨hT, w, m, c, s, e, o, hw, hm, hc, hs, he, ho, _⟩ := clear_jets p r sat g d b g' d' b' t hg hd hb h
  have cg := hg.continuousAt
  have cd := hd.continuousAt
  have cb := hb.continuousAt
  have cT := hT.continuousAt
  have cu : ContinuousAt (fun y => g y - p.Vth (d y) (b y)) t := cg.sub cT
  have cV := hw.2.continuousAt
  have cU := hm.2.continuousAt
  have cC := hc.2.continuousAt
  have cS := hs.2.continuousAt
  have cE := he.2.continuousAt
  have cL := ho.2.continuousAt
  have hs0 : 0 < p.Vsat (p.Vg r (g t - p.Vth (d t) (b t)) (d t) (b t)) (b t) := lt_trans (by norm_num) h.tiny
  have lt : ∀ {f1 f2 : ℝ → ℝ}, ContinuousAt f1 t → ContinuousAt f2 t → f1 t < f2 t → ∀ᶠ y in 𝓝 t, f1 y < f2 y := fun a b c => a.eventually_lt b c
  have cc : ∀ k : ℝ, ContinuousAt (fun _ : ℝ => k) t := fun _ => continuousAt_const
  have k1 : ∀ᶠ y in 𝓝 t, p.Ok (b y) := by
    filter_upwards [lt cb (cc 0) h.ok.bulk] with y hy using ⟨hy, h.ok.phi, h.ok.k1⟩
  have calm : ∀ u : ℝ → ℝ, ContinuousAt u t → p.Calm (u t) (d t) (b t) → ∀ᶠ y in 𝓝 t, p.Calm (u y) (d y) (b y) := by
    intro u cu hcm
    have cN := (N_path5 p d b d' b' t hd hb h.ok).2.continuousAt
    have hn : 2 * p.N (d t) (b t) * p.vtm ≠ 0 := mul_ne_zero (mul_ne_zero two_ne_zero hcm.swing) hcm.vtm.ne'
    filter_upwards [lt (cc 0) cd hcm.drain, cN.eventually_ne hcm.swing, lt (cd.div_const p.vtm) (cc 30) hcm.top,
      lt (cc _) (((Real.continuous_exp.continuousAt.comp (cd.neg.div_const p.vtm)).const_sub 1)) hcm.tiny,
      lt (cc _) (cu.div ((cN.const_mul 2).mul (cc p.vtm)) hn) hcm.deep] with y y1 y2 y3 y4 y5
    exact ⟨hcm.vtm, y1, y2, y3, y4, y5⟩
  have k3 : ∀ᶠ y in 𝓝 t, p.Gate r (g y - p.Vth (d y) (b y)) (d y) (b y) := by
    have hr := h.gate
    cases r with
    | high => exact Eventually.of_forall fun _ => trivial
    | mid => exact (calm (fun _ => p.vglow) (cc _) hr.1).mono fun y hy => ⟨hy, hr.2⟩
    | low => exact calm _ cu hr
  have k4 : ∀ᶠ y in 𝓝 t, sat = true → p.Vsat (p.Vg r (g y - p.Vth (d y) (b y)) (d y) (b y)) (b y) < d y ∧
      (p.ai0 ≠ 0 → (p.bi0 + p.biB * b y) / (d y - p.Vsat (p.Vg r (g y - p.Vth (d y) (b y)) (d y) (b y)) (b y)) < 30) := by
    cases sat
    · exact Eventually.of_forall fun y k => by cases k
    · obtain ⟨h1, h2⟩ := h.above rfl
      by_cases ha : p.ai0 = 0
      · exact (lt cS cd h1).mono fun y hy _ => ⟨hy, fun k => absurd ha k⟩
      · filter_upwards [lt cS cd h1, lt ((cb.const_mul p.biB).const_add p.bi0 |>.div (cd.sub cS) (sub_ne_zero.2 h1.ne')) (cc 30) (h2 ha)] with y y1 y2 _
        exact ⟨y1, fun _ => y2⟩
  have k5 : ∀ᶠ y in 𝓝 t, sat = false → d y < p.Vsat (p.Vg r (g y - p.Vth (d y) (b y)) (d y) (b y)) (b y) ∧
      1 / 2 < p.U0 (p.Vg r (g y - p.Vth (d y) (b y)) (d y) (b y)) (b y) + (p.u10 + p.u1B * b y) *
        (1 - p.u1D * (d y / p.Vsat (p.Vg r (g y - p.Vth (d y) (b y)) (d y) (b y)) (b y) - 1) ^ 2) * d y := by
    cases sat
    · obtain ⟨h1, h2⟩ := h.below rfl
      filter_upwards [lt cd cS h1, lt (cc _) (cU.add ((((cb.const_mul p.u1B).const_add p.u10).mul
        (((((cd.div cS hs0.ne').sub (cc 1)).pow 2).const_mul p.u1D).const_sub 1)).mul cd)) h2] with y y1 y2 _
      exact ⟨y1, y2⟩
    · exact Eventually.of_forall fun y k => by cases k
  filter_upwards [k1, lt (cc _) cb h.limB, lt cg (cc _) h.limG, lt cd (cc _) h.limD, k3, lt (cc 0) cV h.pos, lt (cc _) cU h.mob,
    lt (cc _) cC h.crit, lt (cc _) cS h.tiny,
    lt (((((cb.const_mul p.beta2B).const_add p.beta20).add (cg.const_mul p.beta2G)).mul cd).div cS hs0.ne') (cc 30) h.tanh,
    cE.eventually_ne h.gain, k4, k5, lt (cc _) cL h.floor] with y a1 a2 a3 a4 a6 a7 a8 a9 a10 a11 a12 a13 a14 a15
  exact ⟨a1, a2, a3, a4, a6, a7, a8, a9, a10, a11, a12, a13, a14, a15⟩

open Filter Topology in
/-- what is inside stays inside for a while -/
theorem inside_near (p : P5) (r : Range) (sat : Bool) (g d b : ℝ → ℝ) (g' d' b' t : ℝ) (hg : HasDerivAt g g' t) (hd : HasDerivAt d d' t)
    (hb : HasDerivAt b b' t) (h : p.Inside r sat (g t) (d t) (b t)) : ∀ᶠ y in 𝓝 t, p.Inside r sat (g y) (d y) (b y) := by
  have cu : ContinuousAt (fun y => g y - p.Vth (d y) (b y)) t := hg.continuousAt.sub (vth_path p d b d' b' t hd hb h.ok).continuousAt
  have lt : ∀ {f1 f2 : ℝ → ℝ}, ContinuousAt f1 t → ContinuousAt f2 t → f1 t < f2 t → ∀ᶠ y in 𝓝 t, f1 y < f2 y := fun a b c => a.eventually_lt b c
  have cc : ∀ k : ℝ, ContinuousAt (fun _ : ℝ => k) t := fun _ => continuousAt_const
  have k2 : ∀ᶠ y in 𝓝 t, p.InRange r (g y - p.Vth (d y) (b y)) := by
    have hr := h.range
    cases r with
    | high =>
      refine (Eventually.and ?_ (lt (cc p.vglow) cu hr.2))
      rcases hr.1 with k | k
      · exact (lt (cc p.vghigh) cu k).mono fun y hy => Or.inl hy
      · exact Eventually.of_forall fun y => Or.inr k
    | mid => filter_upwards [lt (cc p.vglow) cu hr.2.1, lt cu (cc p.vghigh) hr.2.2] with y y1 y2 using ⟨hr.1, y1, y2⟩
    | low => filter_upwards [lt cu (cc p.vglow) hr.2.1, lt cu (cc p.vghigh) hr.2.2] with y y1 y2 using ⟨hr.1, y1, y2⟩
  filter_upwards [clear_near p r sat g d b g' d' b' t hg hd hb h.toClear, k2] with y y1 y2 using ⟨y1, y2⟩

/-- **C101, the current.**  In every region, away from the guards, the current reported is that of the law, with its threshold and
saturation voltage. -/
theorem level5_current (p : P5) (r : Range) (sat : Bool) (g d b : ℝ) (h : p.Inside r sat g d b) :
    ∃ o, p.eval g d b = some o ∧ o.ids = p.Law r sat g d b ∧ o.von = p.Vth d b ∧ o.vdsat = p.Vsat (p.Vg r (g - p.Vth d b) d b) b := by
  obtain ⟨_, w, m, c, s, e, o, hw, hm, hc, hs, he, ho, hcore⟩ := clear_jets p r sat (fun _ => g) (fun _ => d) (fun _ => b) 0 0 0 0
    (hasDerivAt_const _ _) (hasDerivAt_const _ _) (hasDerivAt_const _ _) h.toClear
  replace hcore := hcore h.range
  unfold P5.eval
  simp only [max_eq_right h.limB.le, min_eq_right h.limG.le, min_eq_right h.limD.le]
  rw [hcore]
  refine ⟨_, rfl, ?_, vth5 p h.ok d, hs.1⟩
  show max o.v _ = _
  rw [ho.1, max_eq_left h.floor.le]

/-- the current reported, nothing if the program stops -/
noncomputable def P5.ids (p : P5) (g d b : ℝ) : ℝ := (p.eval g d b).elim 0 Out.ids

/-- **C101, the slopes.**  In every region, away from the guards, and where the current rises with the drain voltage, the slopes reported
are those of the current reported: along every curve through the point it moves with `gm`, `gds`, `gmb`. -/
theorem level5_slopes (p : P5) (r : Range) (sat : Bool) (vgs vds vbs : ℝ) (h : p.Inside r sat vgs vds vbs) :
    ∃ o D, p.eval vgs vds vbs = some o ∧ o.gds = max D (1 / 10 ^ 20) ∧
      ∀ (g d b : ℝ → ℝ) (g' d' b' t : ℝ), HasDerivAt g g' t → HasDerivAt d d' t → HasDerivAt b b' t →
        g t = vgs → d t = vds → b t = vbs → HasDerivAt (fun y => p.ids (g y) (d y) (b y)) (o.gm * g' + D * d' + o.gmb * b') t := by
  obtain ⟨_, w, m, c, s, e, j, _, _, _, _, _, _, hcore⟩ := clear_jets p r sat (fun _ => vgs) (fun _ => vds) (fun _ => vbs) 0 0 0 0
    (hasDerivAt_const _ _) (hasDerivAt_const _ _) (hasDerivAt_const _ _) h.toClear
  replace hcore := hcore h.range
  have he : p.eval vgs vds vbs = some ⟨max j.v (1 / 10 ^ 50), max j.d (1 / 10 ^ 20), j.g, j.b,
      (p.von vds vbs).v, vgs - (p.von vds vbs).v, s.v, 0, 0, 0, 0⟩ := by
    unfold P5.eval
    simp only [max_eq_right h.limB.le, min_eq_right h.limG.le, min_eq_right h.limD.le]
    rw [hcore]
    rfl
  refine ⟨_, j.d, he, rfl, ?_⟩
  intro g d b g' d' b' t hg hd hb eg ed eb
  have h' : p.Inside r sat (g t) (d t) (b t) := by rw [eg, ed, eb]; exact h
  obtain ⟨_, w', m', c', s', e', j', _, _, _, _, _, ho, hcore'⟩ := clear_jets p r sat g d b g' d' b' t hg hd hb h'.toClear
  replace hcore' := hcore' h'.range
  rw [eg, ed, eb, hcore] at hcore'
  have ej : j = j' := congrArg Prod.fst (Option.some.inj hcore')
  have hev : (fun y => p.ids (g y) (d y) (b y)) =ᶠ[nhds t] fun y => p.Law r sat (g y) (d y) (b y) := by
    filter_upwards [inside_near p r sat g d b g' d' b' t hg hd hb h'] with y hy
    obtain ⟨o, ho, hi, _⟩ := level5_current p r sat _ _ _ hy
    simp [P5.ids, ho, hi]
  rw [ej]
  exact ho.2.congr_of_eventuallyEq hev

/-! ## Where the pieces meet -/

/-- **C101, at saturation.**  Without hot electrons the current below and that above saturation agree at the saturation voltage. -/
theorem law_meets_sat (p : P5) (v g b : ℝ) (h : p.Ok b) (hv : 0 < v) (hU : 0 < p.U0 v b) (hc : 0 ≤ p.Vc v b) (ha : p.ai0 = 0) :
    p.Itri v g (p.Vsat v b) b = p.Isat v g (p.Vsat v b) b := by
  obtain ⟨_, hA1, _⟩ := A5 p h
  have hA0 : 0 < p.A b := by linarith
  have hK := K5_pos (by linarith : -(1 / 2) < p.Vc v b)
  have hq : 0 < √(K5 (p.Vc v b)) := Real.sqrt_pos.2 hK
  have hqq := Real.mul_self_sqrt hK.le
  -- the factor is the square of half of one more than the root
  have hroot : √(K5 (p.Vc v b)) = (1 + √(1 + 2 * p.Vc v b)) / 2 := by
    have hs := Real.mul_self_sqrt (by linarith : 0 ≤ 1 + 2 * p.Vc v b)
    have hs0 := Real.sqrt_nonneg (1 + 2 * p.Vc v b)
    rw [Real.sqrt_eq_iff_mul_self_eq hK.le (by linarith), K5]
    linear_combination (-1 / 4) * hs
  have hVc : 2 * √(K5 (p.Vc v b)) * √(K5 (p.Vc v b)) - 2 * √(K5 (p.Vc v b)) = p.Vc v b := by
    have hs := Real.mul_self_sqrt (by linarith : 0 ≤ 1 + 2 * p.Vc v b)
    rw [hroot]; linear_combination (1 / 2) * hs
  have hU1 : p.u10 + p.u1B * b = p.Vc v b * p.A b * p.U0 v b / v := by unfold P5.Vc; field_simp
  have hX : p.Vsat v b ≠ 0 := by unfold P5.Vsat; positivity
  unfold P5.Itri P5.Isat P5.Hot
  rw [if_pos ha, mul_one, div_self hX, sub_self, hU1]
  generalize p.Gain (p.Vsat v b) g (p.Vsat v b) b = B
  unfold P5.Vsat
  generalize p.Vc v b = c at *
  generalize K5 c = K at *
  generalize √K = q at *
  rw [← hqq]
  generalize p.U0 v b = U at *
  generalize p.A b = A at *
  subst hVc
  clear hroot hU1 hX hK hqq
  have hd : U + (2 * q * q - 2 * q) * A * U / v * (1 - p.u1D * 0 ^ 2) * (v / (A * q)) = U * (2 * q - 1) := by
    field_simp; ring
  rw [hd]
  have hq1 : 0 < 2 * q - 1 := by
    by_contra hn
    nlinarith [hc]
  have hq2 : 2 * q - 1 ≠ 0 := hq1.ne'
  rw [div_eq_div_iff (by positivity) (by positivity)]
  field_simp

/-- the current of saturation at the low end of the cubic, against that of weak inversion there -/
theorem law_low (p : P5) (g d b : ℝ) (h : p.Ok b) (hc : p.Calm p.vglow d b) (hU : 0 < p.U0 (p.weakV p.vglow d b) b)
    (hcr : -(1 / 2) < p.Vc (p.weakV p.vglow d b) b) :
    p.Isat (p.weakV p.vglow d b) g d b * (K5 (p.Vc (p.weakV p.vglow d b) b) * p.U0 (p.weakV p.vglow d b) b) = p.Iweak true p.vglow g d b := by
  obtain ⟨_, hA1, _⟩ := A5 p h
  have hA0 : 0 < p.A b := by linarith
  have hK := K5_pos hcr
  have he : 0 < 1 - Real.exp (-d / p.vtm) := lt_trans (by norm_num) hc.tiny
  have hw : p.weakV p.vglow d b ^ 2 = p.vtm ^ 2 * (2 * p.A b * (1 - Real.exp (-d / p.vtm))) *
      Real.exp (p.vof0 + p.vofB * b + p.vofD * d + p.vglow / (p.N d b * p.vtm)) := by
    unfold P5.weakV
    rw [mul_pow, mul_pow, Real.sq_sqrt (by positivity), ← Real.exp_nat_mul]
    congr 2
    have := hc.swing; have := hc.vtm.ne'
    push_cast
    field_simp
  unfold P5.Isat P5.Iweak
  rw [hw]
  simp only [if_true]
  field_simp

open Filter Topology in
/-- **Violated** (d_mos5.model:489-492, 536): at the low end of the cubic, in saturation, the current jumps: above it is divided by the
factors of mobility and velocity saturation, below it is not. -/
theorem level5_jump (p : P5) (g d b : ℝ) (hu : g - p.Vth d b = p.vglow) (hn : p.n0 ≠ 0) (hm : p.Clear .mid true g d b) (hl : p.Clear .low true g d b)
    (hK : K5 (p.Vc (p.weakV p.vglow d b) b) * p.U0 (p.weakV p.vglow d b) b ≠ 1) : ¬ ContinuousAt (fun x => p.ids x d b) g := by
  intro hcont
  have hid := hasDerivAt_id g
  have hd := hasDerivAt_const g d
  have hb := hasDerivAt_const g b
  have nm := clear_near p .mid true id (fun _ => d) (fun _ => b) 1 0 0 g hid hd hb hm
  have nl := clear_near p .low true id (fun _ => d) (fun _ => b) 1 0 0 g hid hd hb hl
  obtain ⟨_, _, _, _, _, _, _, _, _, _, _, _, om, _⟩ := clear_jets p .mid true id (fun _ => d) (fun _ => b) 1 0 0 g hid hd hb hm
  obtain ⟨_, _, _, _, _, _, _, _, _, _, _, _, ol, _⟩ := clear_jets p .low true id (fun _ => d) (fun _ => b) 1 0 0 g hid hd hb hl
  have hlh := hm.gate.2
  have h1 : ∀ᶠ x in 𝓝[>] g, p.ids x d b = p.Law .mid true x d b := by
    have e1 : ∀ᶠ x in 𝓝[>] g, x < p.vghigh + p.Vth d b := (eventually_lt_nhds (by linarith)).filter_mono nhdsWithin_le_nhds
    filter_upwards [nm.filter_mono nhdsWithin_le_nhds, e1, self_mem_nhdsWithin] with x x1 x2 x3
    obtain ⟨o, ho, hi, _⟩ := level5_current p .mid true x d b ⟨x1, hn, by have : g < x := x3; linarith, by linarith⟩
    simp [P5.ids, ho, hi]
  have h2 : ∀ᶠ x in 𝓝[<] g, p.ids x d b = p.Law .low true x d b := by
    filter_upwards [nl.filter_mono nhdsWithin_le_nhds, self_mem_nhdsWithin] with x x1 x3
    have : x < g := x3
    obtain ⟨o, ho, hi, _⟩ := level5_current p .low true x d b ⟨x1, hn, by linarith, by linarith⟩
    simp [P5.ids, ho, hi]
  have t1 : Tendsto (fun x => p.ids x d b) (𝓝[>] g) (𝓝 (p.Law .mid true g d b)) :=
    ((om.2.continuousAt.tendsto).mono_left nhdsWithin_le_nhds).congr' (h1.mono fun x hx => hx.symm)
  have t2 : Tendsto (fun x => p.ids x d b) (𝓝[<] g) (𝓝 (p.Law .low true g d b)) :=
    ((ol.2.continuousAt.tendsto).mono_left nhdsWithin_le_nhds).congr' (h2.mono fun x hx => hx.symm)
  have u1 := tendsto_nhds_unique t1 (hcont.tendsto.mono_left nhdsWithin_le_nhds)
  have u2 := tendsto_nhds_unique t2 (hcont.tendsto.mono_left nhdsWithin_le_nhds)
  have hv : p.Vg .mid p.vglow d b = p.weakV p.vglow d b := (hermite_ends hlh.ne _ _ _ _).1
  have hmob := hm.mob
  have hcrit := hm.crit
  rw [hu, hv] at hmob hcrit
  have key := law_low p g d b hm.ok hm.gate.1 (by linarith) hcrit
  have e1 : p.Law .mid true g d b = p.Isat (p.weakV p.vglow d b) g d b := by simp only [P5.Law, hu, hv, if_true]
  have e2 : p.Law .low true g d b = p.Iweak true p.vglow g d b := by simp only [P5.Law, hu]
  have hpos := hm.floor
  rw [e1] at hpos u1
  rw [e2, ← key] at u2
  have : p.Isat (p.weakV p.vglow d b) g d b * (K5 (p.Vc (p.weakV p.vglow d b) b) * p.U0 (p.weakV p.vglow d b) b - 1) = 0 := by
    linear_combination u2 - u1
  rcases mul_eq_zero.1 this with k | k
  · have : (0 : ℝ) < 1 / 10 ^ 50 := by positivity
    linarith
  · exact hK (by linarith)

/-! ## The limits -/

/-- **Violated** (d_mos5.model:214-216): beyond the limits of the voltages the current does not move, and the slopes reported are those
at the limit. -/
theorem level5_limits (p : P5) (g d b : ℝ) :
    (2 * p.vgg < g → p.eval g d b = p.eval (2 * p.vgg) d b ∧ HasDerivAt (fun x => p.ids x d b) 0 g) ∧
    (2 * p.vdd < d → p.eval g d b = p.eval g (2 * p.vdd) b ∧ HasDerivAt (fun x => p.ids g x b) 0 d) ∧
    (b < 2 * p.vbb → p.eval g d b = p.eval g d (2 * p.vbb) ∧ HasDerivAt (fun x => p.ids g d x) 0 b) := by
  have e1 : ∀ x, 2 * p.vgg < x → p.eval x d b = p.eval (2 * p.vgg) d b := by
    intro x hx; unfold P5.eval; simp only [min_self, min_eq_left hx.le]
  have e2 : ∀ x, 2 * p.vdd < x → p.eval g x b = p.eval g (2 * p.vdd) b := by
    intro x hx; unfold P5.eval; simp only [min_self, min_eq_left hx.le]
  have e3 : ∀ x, x < 2 * p.vbb → p.eval g d x = p.eval g d (2 * p.vbb) := by
    intro x hx; unfold P5.eval; simp only [max_self, max_eq_left hx.le]
  refine ⟨fun h => ⟨e1 g h, ?_⟩, fun h => ⟨e2 d h, ?_⟩, fun h => ⟨e3 b h, ?_⟩⟩
  · refine (hasDerivAt_const g (p.ids (2 * p.vgg) d b)).congr_of_eventuallyEq ?_
    filter_upwards [eventually_gt_nhds h] with x hx
    simp only [P5.ids, e1 x hx]
  · refine (hasDerivAt_const d (p.ids g (2 * p.vdd) b)).congr_of_eventuallyEq ?_
    filter_upwards [eventually_gt_nhds h] with x hx
    simp only [P5.ids, e2 x hx]
  · refine (hasDerivAt_const b (p.ids g d (2 * p.vbb))).congr_of_eventuallyEq ?_
    filter_upwards [eventually_lt_nhds h] with x hx
    simp only [P5.ids, e3 x hx]

/-- **Violated** (d_mos5.model:59-60, 79, 216): without `vdd`, which is 0 if not given, no current flows at any voltage. -/
theorem level5_no_vdd (p : P5) (h0 : p.vdd = 0) (g d b : ℝ) (hd : 0 ≤ d) (o : Out) (ho : p.eval g d b = some o) : o.ids = 1 / 10 ^ 50 := by
  unfold P5.eval at ho
  rw [h0, mul_zero, min_eq_left hd] at ho
  simp only [Option.map_eq_some_iff] at ho
  obtain ⟨x, hx, rfl⟩ := ho
  show max x.1.v _ = _
  have hz : x.1.v = 0 := by
    unfold P5.core at hx
    simp only at hx
    have hsv : ∀ w c : Jet, ∀ b, 0 ≤ (p.vdsat w c b).v := fun w c b => le_trans (by norm_num : (0 : ℝ) ≤ 1 / 10 ^ 18) (le_max_right _ _)
    split at hx
    · split at hx
      · rw [if_pos (hsv _ _ _)] at hx
        rw [← Option.some.inj hx]
        simp [P5.triode]
      · split at hx
        · cases hx
        · rw [← Option.some.inj hx]
          have : p.exp1 0 = 1 := by unfold P5.exp1; simp
          simp [P5.weak, this]
    · rw [← Option.some.inj hx]
  rw [hz]
  exact max_eq_right (by positivity)

/-- **Violated** (d_mos5.model:267-270, 530): without `n0`, which is 0 if not given, and with `vglow`, the program stops between
threshold and `vglow`. -/
theorem level5_stops (p : P5) (h0 : p.n0 = 0) (g d b : ℝ) (hb : 2 * p.vbb ≤ b) (hg : g ≤ 2 * p.vgg) (hd : d ≤ 2 * p.vdd) (hok : p.Ok b)
    (h1 : p.Vth d b < g) (h2 : g ≤ p.Vth d b + p.vglow) : p.eval g d b = none := by
  unfold P5.eval
  simp only [max_eq_right hb, min_eq_right hg, min_eq_right hd]
  have er : p.range (g - p.Vth d b) = .high := by unfold P5.range; exact if_pos (Or.inr h0)
  unfold P5.core
  simp only [vth5 p hok, er]
  rw [if_pos (show 0 < (p.vgeff .high (g - p.Vth d b) d b).v by show 0 < g - p.Vth d b; linarith), if_neg (by linarith), if_pos trivial]
  rfl

/-! ## The device -/

/-- the program does not stop if the cubic has a length and there is a swing -/
theorem eval5_some (p : P5) (hn : p.n0 ≠ 0) (hl : p.vglow < p.vghigh) (g d b : ℝ) : ∃ o, p.eval g d b = some o := by
  have : ∀ g d b, ∃ x, p.core g d b = some x := by
    intro g d b
    unfold P5.core
    simp only
    split
    · split
      · split <;> exact ⟨_, rfl⟩
      · rename_i h1
        rw [if_neg]
        · exact ⟨_, rfl⟩
        · unfold P5.range
          rw [if_neg (by rintro (k | k); exacts [h1 (lt_of_lt_of_le hl k), hn k])]
          split <;> simp
    · exact ⟨_, rfl⟩
  unfold P5.eval
  obtain ⟨x, hx⟩ := this (min (2 * p.vgg) g) (min (2 * p.vdd) d) (max (2 * p.vbb) b)
  simp only [hx]
  exact ⟨_, rfl⟩

/-- **C101, from any state.**  Without feedback of the drain, with node voltages held that are inside a region, after finitely many
iterations the current loaded is, and stays, that of the law, in the direction of the voltage. -/
theorem level5_device (p : P5) (he : p.eta0 = 0 ∧ p.etaB = 0) (c : Cfg) (hc : ∀ g d b, p.eval g d b = some (c.E g d b))
    (hp : c.pol = 1 ∨ c.pol = -1) (v : Nodes) (rev : Bool) (hd : 0 < effVds c v rev) (r : Range) (sat : Bool)
    (h : p.Inside r sat (effVgs c v rev) (effVds c v rev) (effVbs c v rev)) (s : St) :
    ∃ N, ∀ n, N ≤ n → ((St.doTr c false v)^[n] s).iDS v =
      (if rev then -1 else 1) * c.pol * p.Law r sat (effVgs c v rev) (effVds c v rev) (effVbs c v rev) := by
  obtain ⟨N, hN⟩ := settles c v (fun b => (p.von 0 (max (2 * p.vbb) b)).v) (by
    intro g d b
    have := hc g d b
    unfold P5.eval at this
    simp only [Option.map_eq_some_iff] at this
    obtain ⟨x, _, hx⟩ := this
    rw [← hx]
    simp only [P5.von, he.1, he.2]
    ring) s
  refine ⟨N, fun n hn' => ?_⟩
  have hst := hN n hn'
  generalize (St.doTr c false v)^[n] s = st at hst
  have hrev : st.reversed = rev := by
    have h0 := hst.1
    revert h0 hd
    unfold effVds
    clear h
    cases hr : st.reversed <;> cases rev <;> simp only [Bool.false_eq_true, if_false, if_true] <;> intro h1 h2 <;>
      first | (exfalso; nlinarith) | trivial
  have hB : effVbs c v st.reversed ≤ 0 := by rw [hrev]; exact h.ok.bulk.le
  rw [settled_flow c v st hst hp, max_eq_right hB, mul_zero, add_zero, (settled_out c v st hst).2.1]
  obtain ⟨hd0, hd', hg, hb, _⟩ := hst
  rw [hd', hg, hb, min_eq_left hB, hrev]
  obtain ⟨o, ho, hi, _⟩ := level5_current p r sat _ _ _ h
  rw [hc] at ho
  rw [Option.some.inj ho, hi]
  cases rev
  · simp only [Bool.false_eq_true, if_false]; ring
  · simp only [if_true]; ring

/-! ## Cases -/

/-- a transistor: body effect by `k2`, feedback of the drain, loss of mobility from gate and drain, a gain that rises with the drain voltage -/
noncomputable def demo5 (ua u1 n0 vdd : ℝ) : P5 :=
  { phi := 1, vfb := 2, k1 := 0, k2 := 1, eta0 := 1, etaB := 0, ua0 := ua, uaB := 0, ub0 := 0, ubB := 0, u10 := u1, u1B := 0, u1D := 0,
    n0 := n0, nB := 0, nD := 0, vof0 := 0, vofB := 0, vofD := 0, ai0 := 0, aiB := 0, bi0 := 0, biB := 0, vghigh := 1, vglow := -1,
    beta0 := 1, beta0B := 0, betas0 := 1, betasB := 0, beta20 := 0, beta2B := 0, beta2G := 0, beta30 := 1 / 10, beta3B := 0, beta3G := 0,
    beta40 := 0, beta4B := 0, beta4G := 0, vdd := vdd, vgg := 5, vbb := -5, vtm := 1 }

theorem demo5_ok (ua u1 n0 vdd : ℝ) : (demo5 ua u1 n0 vdd).Ok (-1) := ⟨by norm_num, by norm_num [demo5], by norm_num [demo5]⟩

theorem demo5_A (ua u1 n0 vdd b : ℝ) : (demo5 ua u1 n0 vdd).A b = 1 := by simp [P5.A, demo5]

theorem demo5_vth (ua u1 n0 vdd d : ℝ) : (demo5 ua u1 n0 vdd).Vth d (-1) = 1 - d := by simp [P5.Vth, demo5]; ring

theorem demo5_gain (ua u1 n0 vdd x g d b : ℝ) : (demo5 ua u1 n0 vdd).Gain x g d b = 1 + d / 10 := by simp [P5.Gain, demo5]; ring

theorem demo5_num : √(1 + 2 * (3 / 2 : ℝ)) = 2 ∧ √(9 / 4 : ℝ) = 3 / 2 := by
  constructor
  · rw [show (1 + 2 * (3 / 2) : ℝ) = 2 ^ 2 by norm_num]; exact Real.sqrt_sq (by norm_num)
  · rw [show (9 / 4 : ℝ) = (3 / 2) ^ 2 by norm_num]; exact Real.sqrt_sq (by norm_num)

theorem demo5_K : K5 (3 / 2) = 9 / 4 := by unfold K5; rw [demo5_num.1]; norm_num

theorem demo5_U0 (n0 vdd b : ℝ) : (demo5 (1 / 3) 1 n0 vdd).U0 3 b = 2 := by norm_num [P5.U0, demo5]

theorem demo5_Vc (n0 vdd b : ℝ) : (demo5 (1 / 3) 1 n0 vdd).Vc 3 b = 3 / 2 := by
  rw [P5.Vc, demo5_A, demo5_U0]; norm_num [demo5]

theorem demo5_Vsat (n0 vdd b : ℝ) : (demo5 (1 / 3) 1 n0 vdd).Vsat 3 b = 2 := by
  rw [P5.Vsat, demo5_A, demo5_Vc, demo5_K, demo5_num.2]; norm_num

/-- three volts above threshold, one volt at the drain: below saturation, which is at two volts -/
theorem demo5_triode : (demo5 (1 / 3) 1 1 5).Inside .high false 3 1 (-1) ∧ (demo5 (1 / 3) 1 1 5).Law .high false 3 1 (-1) = 11 / 12 := by
  have e : (demo5 (1 / 3) 1 1 5).Vg .high (3 - (demo5 (1 / 3) 1 1 5).Vth 1 (-1)) 1 (-1) = 3 := by rw [demo5_vth]; norm_num [P5.Vg]
  have eL : (demo5 (1 / 3) 1 1 5).Law .high false 3 1 (-1) = 11 / 12 := by
    simp only [P5.Law, e, Bool.false_eq_true, if_false, P5.Itri, demo5_gain, demo5_A, demo5_U0, demo5_Vsat]
    norm_num [demo5]
  refine ⟨⟨⟨demo5_ok _ _ _ _, by norm_num [demo5], by norm_num [demo5], by norm_num [demo5], trivial, by rw [e]; norm_num,
    by rw [e, demo5_U0]; norm_num, by rw [e, demo5_Vc]; norm_num, by rw [e, demo5_Vsat]; norm_num, by rw [e, demo5_Vsat]; norm_num [demo5],
    by rw [demo5_gain]; norm_num, fun k => (by cases k), fun _ => ?_, by rw [eL]; norm_num⟩, ?_⟩, eL⟩
  · rw [e, demo5_Vsat, demo5_U0]; norm_num [demo5]
  · rw [demo5_vth]; exact ⟨Or.inl (by norm_num [demo5]), by norm_num [demo5]⟩

/-- with three volts at the drain: saturation -/
theorem demo5_sat : (demo5 (1 / 3) 1 1 5).Inside .high true 1 3 (-1) ∧ (demo5 (1 / 3) 1 1 5).Law .high true 1 3 (-1) = 13 / 10 := by
  have e : (demo5 (1 / 3) 1 1 5).Vg .high (1 - (demo5 (1 / 3) 1 1 5).Vth 3 (-1)) 3 (-1) = 3 := by rw [demo5_vth]; norm_num [P5.Vg]
  have eL : (demo5 (1 / 3) 1 1 5).Law .high true 1 3 (-1) = 13 / 10 := by
    simp only [P5.Law, e, if_true, P5.Isat, demo5_gain, demo5_A, demo5_U0, demo5_Vc, demo5_K, P5.Hot]
    norm_num [demo5]
  refine ⟨⟨⟨demo5_ok _ _ _ _, by norm_num [demo5], by norm_num [demo5], by norm_num [demo5], trivial, by rw [e]; norm_num,
    by rw [e, demo5_U0]; norm_num, by rw [e, demo5_Vc]; norm_num, by rw [e, demo5_Vsat]; norm_num, by rw [e, demo5_Vsat]; norm_num [demo5],
    by rw [demo5_gain]; norm_num, fun _ => ?_, fun k => (by cases k), by rw [eL]; norm_num⟩, ?_⟩, eL⟩
  · rw [e, demo5_Vsat]; exact ⟨by norm_num, fun k => absurd rfl k⟩
  · rw [demo5_vth]; exact ⟨Or.inl (by norm_num [demo5]), by norm_num [demo5]⟩

example : ∃ o, (demo5 (1 / 3) 1 1 5).eval 3 1 (-1) = some o ∧ o.ids = 11 / 12 ∧ o.von = 0 ∧ o.vdsat = 2 := by
  obtain ⟨o, h1, h2, h3, h4⟩ := level5_current _ _ _ _ _ _ demo5_triode.1
  refine ⟨o, h1, by rw [h2, demo5_triode.2], by rw [h3, demo5_vth]; norm_num, ?_⟩
  rw [h4, demo5_vth, show (demo5 (1 / 3) 1 1 5).Vg .high (3 - (1 - 1)) 1 (-1) = 3 by norm_num [P5.Vg], demo5_Vsat]

example : ∃ o D, (demo5 (1 / 3) 1 1 5).eval 1 3 (-1) = some o ∧ o.gds = max D (1 / 10 ^ 20) ∧
    HasDerivAt (fun y => (demo5 (1 / 3) 1 1 5).ids y 3 (-1)) o.gm 1 ∧ HasDerivAt (fun y => (demo5 (1 / 3) 1 1 5).ids 1 y (-1)) D 3 ∧
    HasDerivAt (fun y => (demo5 (1 / 3) 1 1 5).ids 1 3 y) o.gmb (-1) := by
  obtain ⟨o, D, h1, h2, h3⟩ := level5_slopes _ _ _ _ _ _ demo5_sat.1
  refine ⟨o, D, h1, h2, ?_, ?_, ?_⟩
  · simpa using h3 id (fun _ => 3) (fun _ => -1) 1 0 0 1 (hasDerivAt_id _) (hasDerivAt_const _ _) (hasDerivAt_const _ _) rfl rfl rfl
  · simpa using h3 (fun _ => 1) id (fun _ => -1) 0 1 0 3 (hasDerivAt_const _ _) (hasDerivAt_id _) (hasDerivAt_const _ _) rfl rfl rfl
  · simpa using h3 (fun _ => 1) (fun _ => 3) id 0 0 1 (-1) (hasDerivAt_const _ _) (hasDerivAt_const _ _) (hasDerivAt_id _) rfl rfl rfl

example : (demo5 (1 / 3) 1 1 5).Itri 3 1 2 (-1) = (demo5 (1 / 3) 1 1 5).Isat 3 1 2 (-1) := by
  have := law_meets_sat (demo5 (1 / 3) 1 1 5) 3 1 (-1) (demo5_ok _ _ _ _) (by norm_num) (by rw [demo5_U0]; norm_num) (by rw [demo5_Vc]; norm_num) rfl
  rwa [demo5_Vsat] at this

example : hermite 0 2 1 3 0 5 0 = 1 ∧ hermite 0 2 1 3 0 5 2 = 3 := ⟨(hermite_ends (by norm_num) _ _ _ _).1, (hermite_ends (by norm_num) _ _ _ _).2.1⟩

/-- without `vdd` no current, at two volts above threshold and one volt at the drain too -/
example (o : Out) (ho : (demo5 0 0 1 0).eval 3 1 (-1) = some o) : o.ids = 1 / 10 ^ 50 := level5_no_vdd _ rfl _ _ _ (by norm_num) _ ho

example : ∃ o, (demo5 0 0 1 0).eval 3 1 (-1) = some o := eval5_some _ (by norm_num [demo5]) (by norm_num [demo5]) _ _ _

example : HasDerivAt (fun x => (demo5 (1 / 3) 1 1 5).ids x 1 (-1)) 0 11 := ((level5_limits (demo5 (1 / 3) 1 1 5) 11 1 (-1)).1 (by norm_num [demo5])).2

/-- the root of weak inversion at the low end, one volt at the drain -/
theorem demo5_weakV (ua u1 vdd : ℝ) : ∃ w, (demo5 ua u1 1 vdd).weakV (-1) 1 (-1) = w ∧ 1 / 2 < w ∧ w < 1 ∧
    w ^ 2 = 2 * (1 - Real.exp (-1)) * Real.exp (-1) ∧ 1 / 3 < Real.exp (-1) ∧ Real.exp (-1) < 1 / 2 := by
  have h3 : (1 : ℝ) / 3 < Real.exp (-1) := by
    rw [Real.exp_neg, ← one_div]
    exact one_div_lt_one_div_of_lt (Real.exp_pos 1) (lt_trans Real.exp_one_lt_d9 (by norm_num))
  have h2 : Real.exp (-1) < 1 / 2 := by
    rw [Real.exp_neg, ← one_div]
    exact one_div_lt_one_div_of_lt (by norm_num) (lt_trans (by norm_num) Real.exp_one_gt_d9)
  have e : (demo5 ua u1 1 vdd).weakV (-1) 1 (-1) = √(2 * (1 - Real.exp (-1))) * Real.exp (-1 / 2) := by
    simp only [P5.weakV, demo5_A, P5.N]
    norm_num [demo5]
  have hsq : (√(2 * (1 - Real.exp (-1))) * Real.exp (-1 / 2)) ^ 2 = 2 * (1 - Real.exp (-1)) * Real.exp (-1) := by
    rw [mul_pow, Real.sq_sqrt (by linarith), ← Real.exp_nat_mul]
    norm_num
  have h0 : 0 ≤ √(2 * (1 - Real.exp (-1))) * Real.exp (-1 / 2) := by positivity
  refine ⟨_, e, ?_, ?_, hsq, h3, h2⟩
  · refine lt_of_pow_lt_pow_left₀ 2 h0 ?_
    rw [hsq]; nlinarith
  · refine lt_of_pow_lt_pow_left₀ 2 (by norm_num) ?_
    rw [hsq]; nlinarith

theorem demo5_calm (ua u1 vdd u : ℝ) (hu : -60 < u) : (demo5 ua u1 1 vdd).Calm u 1 (-1) := by
  obtain ⟨w, _, _, _, _, _, h2⟩ := demo5_weakV ua u1 vdd
  have hN : (demo5 ua u1 1 vdd).N 1 (-1) = 1 := by simp [P5.N, demo5]
  refine ⟨by norm_num [demo5], by norm_num, by rw [hN]; norm_num, by norm_num [demo5], ?_, ?_⟩
  · have : (-1 : ℝ) / (demo5 ua u1 1 vdd).vtm = -1 := by norm_num [demo5]
    rw [this]
    have : (1 : ℝ) / 10 ^ 18 < 1 / 2 := by norm_num
    linarith
  · rw [hN]
    have : (2 : ℝ) * 1 * (demo5 ua u1 1 vdd).vtm = 2 := by norm_num [demo5]
    rw [this]; linarith

theorem demo5_plain (ua vdd v b : ℝ) (_ : 0 < v) : (demo5 ua 0 1 vdd).Vc v b = 0 ∧ K5 0 = 1 ∧ (demo5 ua 0 1 vdd).Vsat v b = v := by
  have h1 : (demo5 ua 0 1 vdd).Vc v b = 0 := by simp [P5.Vc, demo5]
  have h2 : K5 0 = 1 := by norm_num [K5]
  exact ⟨h1, h2, by rw [P5.Vsat, h1, h2, demo5_A]; simp⟩

/-- at the low end of the cubic both pieces are clear -/
theorem demo5_edge : (demo5 1 0 1 5).Clear .mid true (-1) 1 (-1) ∧ (demo5 1 0 1 5).Clear .low true (-1) 1 (-1) := by
  obtain ⟨w, ew, h1, h2, hsq, h3, h4⟩ := demo5_weakV 1 0 5
  have hu : (-1 : ℝ) - (demo5 1 0 1 5).Vth 1 (-1) = -1 := by rw [demo5_vth]; norm_num
  have em : (demo5 1 0 1 5).Vg .mid (-1) 1 (-1) = w := by
    have := (hermite_ends (x0 := (-1 : ℝ)) (x1 := 1) (by norm_num) ((demo5 1 0 1 5).weakV (-1) 1 (-1)) 1
      ((demo5 1 0 1 5).weakV (-1) 1 (-1) / (2 * (demo5 1 0 1 5).N 1 (-1) * (demo5 1 0 1 5).vtm)) 1).1
    rw [← ew]; exact this
  have el : (demo5 1 0 1 5).Vg .low (-1) 1 (-1) = w := ew
  have w0 : 0 < w := by linarith
  obtain ⟨eC, eK, eS⟩ := demo5_plain 1 5 w (-1) w0
  have eU : (demo5 1 0 1 5).U0 w (-1) = 1 + w := by simp [P5.U0, demo5]
  have fm : (1 : ℝ) / 10 ^ 50 < (demo5 1 0 1 5).Law .mid true (-1) 1 (-1) := by
    simp only [P5.Law, hu, em, if_true, P5.Isat, demo5_gain, demo5_A, eC, eK, eU, P5.Hot]
    rw [if_pos (by simp [demo5]), mul_one, lt_div_iff₀ (by linarith)]
    have : (1 : ℝ) / 10 ^ 50 ≤ 1 / 100 := by norm_num
    nlinarith
  have fl : (1 : ℝ) / 10 ^ 50 < (demo5 1 0 1 5).Law .low true (-1) 1 (-1) := by
    have ev : (demo5 1 0 1 5).vtm = 1 := rfl
    have eN : (demo5 1 0 1 5).N 1 (-1) = 1 := by simp [P5.N, demo5]
    have ex : (demo5 1 0 1 5).vof0 + (demo5 1 0 1 5).vofB * -1 + (demo5 1 0 1 5).vofD * 1 + -1 / (1 * 1) = (-1 : ℝ) := by norm_num [demo5]
    simp only [P5.Law, hu, P5.Iweak, demo5_gain, ev, eN, ex, if_true, P5.Hot]
    rw [if_pos (by simp [demo5])]
    have : (1 : ℝ) / 10 ^ 50 ≤ 1 / 100 := by norm_num
    rw [show (-1 : ℝ) / 1 = -1 by norm_num]
    nlinarith
  constructor
  · refine ⟨demo5_ok _ _ _ _, by norm_num [demo5], by norm_num [demo5], by norm_num [demo5], ⟨demo5_calm _ _ _ _ (by norm_num [demo5]), by norm_num [demo5]⟩,
      by rw [hu, em]; exact w0, by rw [hu, em, eU]; linarith, by rw [hu, em, eC]; norm_num, by rw [hu, em, eS]; exact lt_trans (by norm_num) h1,
      by rw [hu, em, eS]; norm_num [demo5], by rw [demo5_gain]; norm_num, fun _ => ?_, fun k => (by cases k), fm⟩
    rw [hu, em, eS]; exact ⟨h2, fun k => absurd rfl k⟩
  · refine ⟨demo5_ok _ _ _ _, by norm_num [demo5], by norm_num [demo5], by norm_num [demo5], by rw [hu]; exact demo5_calm _ _ _ _ (by norm_num),
      by rw [hu, el]; exact w0, by rw [hu, el, eU]; linarith, by rw [hu, el, eC]; norm_num, by rw [hu, el, eS]; exact lt_trans (by norm_num) h1,
      by rw [hu, el, eS]; norm_num [demo5], by rw [demo5_gain]; norm_num, fun _ => ?_, fun k => (by cases k), fl⟩
    rw [hu, el, eS]; exact ⟨h2, fun k => absurd rfl k⟩

/-- the jump is there with loss of mobility from the gate -/
example : ¬ ContinuousAt (fun x => (demo5 1 0 1 5).ids x 1 (-1)) (-1) := by
  obtain ⟨w, ew, h1, h2, _⟩ := demo5_weakV 1 0 5
  obtain ⟨eC, eK, _⟩ := demo5_plain 1 5 w (-1) (by linarith)
  refine level5_jump _ _ _ _ (by rw [demo5_vth]; norm_num [demo5]) (by norm_num [demo5]) demo5_edge.1 demo5_edge.2 ?_
  rw [show (demo5 1 0 1 5).vglow = -1 from rfl, ew, eC, eK, show (demo5 1 0 1 5).U0 w (-1) = 1 + w by simp [P5.U0, demo5]]
  linarith

/-- inside the ranges of the cubic and of weak inversion there are points: close to the end -/
example : ∃ x, (demo5 1 0 1 5).Inside .mid true x 1 (-1) := by
  have := clear_near (demo5 1 0 1 5) .mid true id (fun _ => 1) (fun _ => -1) 1 0 0 (-1) (hasDerivAt_id _) (hasDerivAt_const _ _) (hasDerivAt_const _ _) demo5_edge.1
  have h1 : ∀ᶠ x in nhdsWithin (-1 : ℝ) (Set.Ioi (-1)), x < 1 := (eventually_lt_nhds (by norm_num)).filter_mono nhdsWithin_le_nhds
  obtain ⟨x, hx, h2, h3⟩ := ((this.filter_mono nhdsWithin_le_nhds).and (h1.and self_mem_nhdsWithin)).exists
  have h3 : -1 < x := h3
  exact ⟨x, hx, by norm_num [demo5], by rw [demo5_vth]; simp [demo5]; linarith, by rw [demo5_vth]; simp [demo5]; linarith⟩

example : ∃ x, (demo5 1 0 1 5).Inside .low true x 1 (-1) := by
  have := clear_near (demo5 1 0 1 5) .low true id (fun _ => 1) (fun _ => -1) 1 0 0 (-1) (hasDerivAt_id _) (hasDerivAt_const _ _) (hasDerivAt_const _ _) demo5_edge.2
  obtain ⟨x, hx, h3⟩ := ((this.filter_mono nhdsWithin_le_nhds).and (self_mem_nhdsWithin (s := Set.Iio (-1 : ℝ)))).exists
  have h3 : x < -1 := h3
  exact ⟨x, hx, by norm_num [demo5], by rw [demo5_vth]; simp [demo5]; linarith, by rw [demo5_vth]; simp [demo5]; linarith⟩

/-- without `n0`: with `vglow` at half a volt, a quarter above threshold -/
example : ({ demo5 0 0 0 5 with vglow := 1 / 2 } : P5).eval (1 / 4) 1 (-1) = none := by
  have hv : ({ demo5 0 0 0 5 with vglow := 1 / 2 } : P5).Vth 1 (-1) = 0 := by norm_num [P5.Vth, demo5]
  refine level5_stops _ rfl _ _ _ (by norm_num [demo5]) (by norm_num [demo5]) (by norm_num [demo5]) ⟨by norm_num, by norm_num [demo5], by norm_num [demo5]⟩ ?_ ?_
  · rw [hv]; norm_num
  · rw [hv]; norm_num

/-- a transistor the wrong way round, from any state -/
example (s : St) : ∃ M, ∀ m, M ≤ m →
    ((St.doTr ⟨fun g d b => (({ demo5 (1 / 3) 1 1 5 with eta0 := 0 } : P5).eval g d b).getD ⟨0, 0, 0, 0, 0, 0, 0, 0, 0, 0, 0⟩, 1, false, false, true⟩ false
      ⟨0, 4, 1, -1⟩)^[m] s).iDS ⟨0, 4, 1, -1⟩ = -(11 / 12) := by
  obtain ⟨q, hq⟩ : ∃ q : P5, q = { demo5 (1 / 3) 1 1 5 with eta0 := 0 } := ⟨_, rfl⟩
  have eT : q.Vth 1 (-1) = 1 := by rw [hq]; norm_num [P5.Vth, demo5]
  have e : q.Vg .high (4 - q.Vth 1 (-1)) 1 (-1) = 3 := by rw [eT]; norm_num [P5.Vg]
  have eU : q.U0 3 (-1) = 2 := by rw [hq]; exact demo5_U0 1 5 (-1)
  have eC : q.Vc 3 (-1) = 3 / 2 := by rw [hq]; exact demo5_Vc 1 5 (-1)
  have eS : q.Vsat 3 (-1) = 2 := by rw [hq]; exact demo5_Vsat 1 5 (-1)
  have eG : ∀ x, q.Gain x 4 1 (-1) = 1 + 1 / 10 := by rw [hq]; exact fun x => demo5_gain (1 / 3) 1 1 5 x 4 1 (-1)
  have eA : q.A (-1) = 1 := by rw [hq]; exact demo5_A (1 / 3) 1 1 5 (-1)
  have eL : q.Law .high false 4 1 (-1) = 11 / 12 := by
    simp only [P5.Law, e, Bool.false_eq_true, if_false, P5.Itri, eG, eA, eU, eS]
    rw [hq]
    norm_num [demo5]
  have hin : q.Inside .high false 4 1 (-1) := by
    refine ⟨⟨⟨by norm_num, by rw [hq]; norm_num [demo5], by rw [hq]; norm_num [demo5]⟩, by rw [hq]; norm_num [demo5], by rw [hq]; norm_num [demo5],
      by rw [hq]; norm_num [demo5], trivial, by rw [e]; norm_num, by rw [e, eU]; norm_num, by rw [e, eC]; norm_num, by rw [e, eS]; norm_num,
      by rw [e, eS, hq]; norm_num [demo5], by rw [eG]; norm_num, fun k => (by cases k), fun _ => ?_, by rw [eL]; norm_num⟩, ?_⟩
    · rw [e, eS, eU, hq]; norm_num [demo5]
    · rw [eT, hq]; exact ⟨Or.inl (by norm_num [demo5]), by norm_num [demo5]⟩
  rw [← hq]
  obtain ⟨N, hN⟩ := level5_device q (by rw [hq]; exact ⟨rfl, rfl⟩)
    ⟨fun g d b => (q.eval g d b).getD ⟨0, 0, 0, 0, 0, 0, 0, 0, 0, 0, 0⟩, 1, false, false, true⟩
    (by
      intro g d b
      obtain ⟨o, ho⟩ := eval5_some q (by rw [hq]; norm_num [demo5]) (by rw [hq]; norm_num [demo5]) g d b
      simp only [ho, Option.getD_some]) (Or.inl rfl) ⟨0, 4, 1, -1⟩ true (by norm_num [effVds]) .high false (by
        simp only [effVgs, effVds, effVbs, if_true]
        norm_num
        exact hin) s
  refine ⟨N, fun n hn => (hN n hn).trans ?_⟩
  simp only [effVgs, effVds, effVbs, if_true]
  norm_num
  rw [eL]

end Gnucap.Mos
