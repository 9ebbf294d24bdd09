import Verif.BjtModel
import Verif.LimitProps
import Verif.IntegProps
import Verif.MosProps
import Mathlib.Analysis.SpecialFunctions.Sqrt
import Mathlib.Analysis.SpecialFunctions.ExpDeriv
import Mathlib.Analysis.SpecialFunctions.Pow.Deriv
import Mathlib.Analysis.Complex.ExponentialBounds
import Mathlib.Tactic.Linarith
import Mathlib.Tactic.FieldSimp
import Mathlib.Tactic.LinearCombination

/-!
# Bipolar transistor (C71)
-/
set_option linter.unusedSimpArgs false
set_option linter.unnecessarySeqFocus false
namespace Gnucap.Bjt

/-! ## junctions -/

/-- Specification: current of a junction -/
noncomputable def expo (is vtn gmin v : ℝ) : ℝ := is * (Real.exp (v / vtn) - 1) + gmin * v

theorem expo_deriv (is vtn gmin v : ℝ) : HasDerivAt (expo is vtn gmin) (is * Real.exp (v / vtn) / vtn + gmin) v := by
  have h1 : HasDerivAt (fun x : ℝ => Real.exp (x / vtn)) (Real.exp (v / vtn) * (1 / vtn)) v :=
    ((hasDerivAt_id v).div_const vtn).exp
  have h2 : HasDerivAt (fun x : ℝ => is * (Real.exp (x / vtn) - 1) + gmin * x) (is * (Real.exp (v / vtn) * (1 / vtn)) + gmin * 1) v :=
    ((h1.sub_const 1).const_mul is).add ((hasDerivAt_id v).const_mul gmin)
  exact h2.congr_deriv (by ring)

/-- C71: above -5vt (times the emission coefficient) a junction follows its exponential, with its slope -/
theorem half_on (vt n nl is leak gmin v : ℝ) (h : -5 * (vt * n) < v) :
    (half vt n nl is leak gmin v).c = expo is (vt * n) gmin v ∧
    HasDerivAt (expo is (vt * n) gmin) (half vt n nl is leak gmin v).g v ∧
    (half vt n nl is leak gmin v).cn = expo leak (nl * vt) 0 v ∧
    HasDerivAt (expo leak (nl * vt) 0) (half vt n nl is leak gmin v).gn v := by
  unfold half
  simp only [if_pos h]
  refine ⟨rfl, expo_deriv .., ?_, ?_⟩
  · unfold expo; split <;> simp_all
  · refine (expo_deriv ..).congr_deriv ?_
    split <;> simp_all

/-- C71: at and below it, it is within e^-5 of the saturation current; the line loaded passes through the origin -/
theorem half_off (vt n nl is leak gmin v : ℝ) (hvt : 0 < vt * n) (hnl : 0 < nl * vt) (his : 0 ≤ is) (h : v ≤ -5 * (vt * n)) :
    let r := half vt n nl is leak gmin v
    r.c = -is + gmin * v ∧ |r.c - expo is (vt * n) gmin v| ≤ is * Real.exp (-5) ∧ r.cn = -leak ∧ r.c = r.g * v ∧ r.cn = r.gn * v := by
  have hv : v ≠ 0 := by nlinarith
  have e1 : half vt n nl is leak gmin v = ⟨(-is / v + gmin) * v, -is / v + gmin, (-leak / v) * v, -leak / v⟩ := by
    unfold half; simp only [if_neg (not_lt.mpr h)]
  have hc : (-is / v + gmin) * v = -is + gmin * v := by field_simp
  simp only [e1]
  refine ⟨hc, ?_, by field_simp, trivial, trivial⟩
  rw [hc]
  unfold expo
  have e : -is + gmin * v - (is * (Real.exp (v / (vt * n)) - 1) + gmin * v) = -(is * Real.exp (v / (vt * n))) := by ring
  rw [e, abs_neg, abs_of_nonneg (mul_nonneg his (Real.exp_pos _).le)]
  refine mul_le_mul_of_nonneg_left (Real.exp_le_exp.mpr ?_) his
  rw [div_le_iff₀ hvt]; linarith

/-! ## Gummel and Poon -/

/-- Specification: the two junctions -/
noncomputable def Par.iF (p : Par) (v : ℝ) : ℝ := expo p.ise (p.vt * p.nf) p.gmin v
noncomputable def Par.iR (p : Par) (v : ℝ) : ℝ := expo p.isc (p.vt * p.nr) p.gmin v
/-- Specification: base charge, from the Early voltages and the roll off -/
noncomputable def Par.early (p : Par) (vbe vbc : ℝ) : ℝ := 1 - p.ivaf * vbc - p.ivar * vbe
noncomputable def Par.roll (p : Par) (vbe vbc : ℝ) : ℝ := 1 + 4 * (p.oik * p.iF vbe + p.oikr * p.iR vbc)
noncomputable def Par.charge (p : Par) (vbe vbc : ℝ) : ℝ := (1 + Real.sqrt (p.roll vbe vbc)) / 2 / p.early vbe vbc
/-- Specification: transport current, base currents -/
noncomputable def Par.transport (p : Par) (vbe vbc : ℝ) : ℝ := (p.iF vbe - p.iR vbc) / p.charge vbe vbc
noncomputable def Par.baseE (p : Par) (v : ℝ) : ℝ := p.iF v / p.bF + expo p.leakE (p.ne * p.vt) 0 v
noncomputable def Par.baseC (p : Par) (v : ℝ) : ℝ := p.iR v / p.bR + expo p.leakC (p.nc * p.vt) 0 v

/-- both junctions above -5vt, in the range of the base charge -/
structure Par.On (p : Par) (vbe vbc : ℝ) : Prop where
  e : -5 * (p.vt * p.nf) < vbe
  c : -5 * (p.vt * p.nr) < vbc
  early : p.early vbe vbc ≠ 0
  roll : 0 < p.roll vbe vbc

theorem base_val (p : Par) (vbe vbc : ℝ) (h : p.On vbe vbc) :
    (p.base vbe vbc).qb = p.charge vbe vbc ∧
    (p.base vbe vbc).dve = 1 / p.early vbe vbc * (p.charge vbe vbc * p.ivar + p.oik * (p.be vbe).g / Real.sqrt (p.roll vbe vbc)) ∧
    (p.base vbe vbc).dvc = 1 / p.early vbe vbc * (p.charge vbe vbc * p.ivaf + p.oikr * (p.bc vbc).g / Real.sqrt (p.roll vbe vbc)) := by
  have he := (half_on p.vt p.nf p.ne p.ise p.leakE p.gmin vbe h.e).1
  have hc := (half_on p.vt p.nr p.nc p.isc p.leakC p.gmin vbc h.c).1
  have hE : 1 - p.ivaf * vbc - p.ivar * vbe = p.early vbe vbc := rfl
  unfold Par.base
  simp only [hE]
  by_cases h0 : p.oik = 0 ∧ p.oikr = 0
  · have hr : p.roll vbe vbc = 1 := by unfold Par.roll; rw [h0.1, h0.2]; ring
    have hq : p.charge vbe vbc = 1 / p.early vbe vbc := by unfold Par.charge; rw [hr, Real.sqrt_one]; norm_num
    rw [if_pos h0, hq, h0.1, h0.2]
    refine ⟨rfl, ?_, ?_⟩ <;> simp only [] <;> ring
  · rw [if_neg h0]
    have hr : 1 + 4 * (p.oik * (p.be vbe).c + p.oikr * (p.bc vbc).c) = p.roll vbe vbc := by
      unfold Par.be Par.bc; rw [he, hc]; rfl
    have hq : 1 / p.early vbe vbc * (1 + Real.sqrt (p.roll vbe vbc)) / 2 = p.charge vbe vbc := by unfold Par.charge; ring
    simp only [hr, max_eq_right h.roll.le, if_neg h.roll.ne', hq, and_self]

theorem charge_ne (p : Par) (vbe vbc : ℝ) (h : p.On vbe vbc) : p.charge vbe vbc ≠ 0 := by
  unfold Par.charge
  have := Real.sqrt_nonneg (p.roll vbe vbc)
  exact div_ne_zero (by linarith) h.early

/-- C71: the base charge and its slopes, in any direction -/
theorem charge_slopes (p : Par) (u w : ℝ → ℝ) (u' w' t : ℝ) (hu : HasDerivAt u u' t) (hw : HasDerivAt w w' t) (h : p.On (u t) (w t)) :
    (p.base (u t) (w t)).qb = p.charge (u t) (w t) ∧
    HasDerivAt (fun x => p.charge (u x) (w x)) ((p.base (u t) (w t)).dve * u' + (p.base (u t) (w t)).dvc * w') t := by
  obtain ⟨h1, h2, h3⟩ := base_val p (u t) (w t) h
  refine ⟨h1, ?_⟩
  have hE : HasDerivAt (fun x => p.iF (u x)) ((p.be (u t)).g * u') t := (half_on p.vt p.nf p.ne p.ise p.leakE p.gmin (u t) h.e).2.1.comp t hu
  have hC : HasDerivAt (fun x => p.iR (w x)) ((p.bc (w t)).g * w') t := (half_on p.vt p.nr p.nc p.isc p.leakC p.gmin (w t) h.c).2.1.comp t hw
  have hr : HasDerivAt (fun x => p.roll (u x) (w x)) (4 * (p.oik * ((p.be (u t)).g * u') + p.oikr * ((p.bc (w t)).g * w'))) t :=
    (((hE.const_mul p.oik).add (hC.const_mul p.oikr)).const_mul 4).const_add 1
  have hs : HasDerivAt (fun x => (1 + Real.sqrt (p.roll (u x) (w x))) / 2)
      ((4 * (p.oik * ((p.be (u t)).g * u') + p.oikr * ((p.bc (w t)).g * w'))) / (2 * Real.sqrt (p.roll (u t) (w t))) / 2) t :=
    ((hr.sqrt h.roll.ne').const_add 1).div_const 2
  have hd : HasDerivAt (fun x => p.early (u x) (w x)) (-(p.ivaf * w') - p.ivar * u') t := by
    have : HasDerivAt (fun x => 1 - p.ivaf * w x - p.ivar * u x) (-(p.ivaf * w') - p.ivar * u') t :=
      ((hw.const_mul p.ivaf).const_sub 1).sub (hu.const_mul p.ivar)
    exact this
  have hq : HasDerivAt (fun x => p.charge (u x) (w x)) _ t := hs.div hd h.early
  refine hq.congr_deriv ?_
  rw [h2, h3]
  unfold Par.charge
  have s0 : Real.sqrt (p.roll (u t) (w t)) ≠ 0 := (Real.sqrt_pos.mpr h.roll).ne'
  have e0 := h.early
  generalize Real.sqrt (p.roll (u t) (w t)) = s at *
  generalize p.early (u t) (w t) = e at *
  field_simp
  ring

/-- C71: `go` and `gm` are the slopes of the transport current of Gummel and Poon, in any direction; `gpi`, `gmu` those of the base
currents -/
theorem slopes (p : Par) (u w : ℝ → ℝ) (u' w' t : ℝ) (hu : HasDerivAt u u' t) (hw : HasDerivAt w w' t) (h : p.On (u t) (w t)) :
    let o := p.currents (u t) (w t)
    HasDerivAt (fun x => p.transport (u x) (w x)) (o.go * (u' - w') + o.gm * u') t ∧
    o.cpi = p.baseE (u t) ∧ HasDerivAt (fun x => p.baseE (u x)) (o.gpi * u') t ∧
    o.cmu = p.baseC (w t) ∧ HasDerivAt (fun x => p.baseC (w x)) (o.gmu * w') t ∧
    o.cce = p.transport (u t) (w t) - p.baseC (w t) := by
  intro o
  obtain ⟨e1, e2, e3, e4⟩ := half_on p.vt p.nf p.ne p.ise p.leakE p.gmin (u t) h.e
  obtain ⟨c1, c2, c3, c4⟩ := half_on p.vt p.nr p.nc p.isc p.leakC p.gmin (w t) h.c
  obtain ⟨q1, q2⟩ := charge_slopes p u w u' w' t hu hw h
  have q0 := charge_ne p (u t) (w t) h
  have hE : HasDerivAt (fun x => p.iF (u x)) ((p.be (u t)).g * u') t := e2.comp t hu
  have hC : HasDerivAt (fun x => p.iR (w x)) ((p.bc (w t)).g * w') t := c2.comp t hw
  have vE : (p.be (u t)).c = p.iF (u t) := e1
  have vC : (p.bc (w t)).c = p.iR (w t) := c1
  refine ⟨?_, ?_, ?_, ?_, ?_, ?_⟩
  · have := (hE.sub hC).div q2 q0
    have h' : HasDerivAt (fun x => p.transport (u x) (w x)) _ t := this
    refine h'.congr_deriv ?_
    simp only [o, Par.currents, q1, vE, vC, Pi.sub_apply]
    field_simp
    ring
  · simp only [o, Par.currents, vE]
    have : (p.be (u t)).cn = expo p.leakE (p.ne * p.vt) 0 (u t) := e3
    rw [this]; rfl
  · have hl : HasDerivAt (fun x => expo p.leakE (p.ne * p.vt) 0 (u x)) ((p.be (u t)).gn * u') t := e4.comp t hu
    have : HasDerivAt (fun x => p.iF (u x) / p.bF + expo p.leakE (p.ne * p.vt) 0 (u x)) ((p.be (u t)).g * u' / p.bF + (p.be (u t)).gn * u') t :=
      (hE.div_const p.bF).add hl
    refine HasDerivAt.congr_deriv (f := fun x => p.baseE (u x)) this ?_
    simp only [o, Par.currents]; ring
  · simp only [o, Par.currents, vC]
    have : (p.bc (w t)).cn = expo p.leakC (p.nc * p.vt) 0 (w t) := c3
    rw [this]; rfl
  · have hl : HasDerivAt (fun x => expo p.leakC (p.nc * p.vt) 0 (w x)) ((p.bc (w t)).gn * w') t := c4.comp t hw
    have : HasDerivAt (fun x => p.iR (w x) / p.bR + expo p.leakC (p.nc * p.vt) 0 (w x)) ((p.bc (w t)).g * w' / p.bR + (p.bc (w t)).gn * w') t :=
      (hC.div_const p.bR).add hl
    refine HasDerivAt.congr_deriv (f := fun x => p.baseC (w x)) this ?_
    simp only [o, Par.currents]; ring
  · have hcn : (p.bc (w t)).cn = expo p.leakC (p.nc * p.vt) 0 (w t) := c3
    simp only [o, Par.currents, q1, vE, vC, hcn, Par.transport, Par.baseC]
    ring

/-! ## limiting -/

theorem up_step (vnew vold vt vcrit : ℝ) (hvt : 0 < vt) (h0 : 0 < vold) (hle : vold ≤ vnew) :
    Limit.pnjLimit vnew vold vt vcrit = vnew ∨
      (vold + vt ≤ Limit.pnjLimit vnew vold vt vcrit ∧ Limit.pnjLimit vnew vold vt vcrit ≤ vnew) := by
  unfold Limit.pnjLimit
  by_cases h : vcrit < vnew ∧ 2 * vt < |vnew - vold|
  · right
    rw [abs_of_nonneg (by linarith)] at h
    have ha : 2 < (vnew - vold) / vt := by rw [lt_div_iff₀ hvt]; exact h.2
    have hc : vcrit < vnew ∧ 2 * vt < |vnew - vold| := by rw [abs_of_nonneg (by linarith)]; exact h
    have hp : 0 < 1 + (vnew - vold) / vt := by linarith
    simp only [if_pos hc, if_pos h0, if_pos hp]
    constructor
    · have h1 : (1 : ℝ) ≤ Real.log (1 + (vnew - vold) / vt) := by
        rw [Real.le_log_iff_exp_le hp]
        have := Real.exp_one_lt_d9
        linarith
      nlinarith
    · have h2 := Real.log_le_sub_one_of_pos hp
      have h3 : vt * Real.log (1 + (vnew - vold) / vt) ≤ vt * ((vnew - vold) / vt) :=
        mul_le_mul_of_nonneg_left (by linarith) hvt.le
      rw [mul_div_cancel₀ _ hvt.ne'] at h3
      linarith
  · left; rw [if_neg h]

theorem stay (vnew vt vcrit : ℝ) (hvt : 0 < vt) (n : ℕ) : (fun v => Limit.pnjLimit vnew v vt vcrit)^[n] vnew = vnew := by
  have hf : Limit.pnjLimit vnew vnew vt vcrit = vnew := Limit.pnj_fixed _ _ _ hvt.le
  induction n with
  | zero => rfl
  | succ n ih => rw [Function.iterate_succ_apply, hf, ih]

theorem up_reaches (vnew vt vcrit : ℝ) (hvt : 0 < vt) (k : ℕ) : ∀ vold : ℝ, 0 < vold → vold ≤ vnew → vnew - vold < k * vt →
    ∃ n, (fun v => Limit.pnjLimit vnew v vt vcrit)^[n] vold = vnew := by
  induction k with
  | zero => intro vold _ h1 h2; simp at h2; linarith
  | succ k ih =>
    intro vold h0 h1 h2
    rcases up_step vnew vold vt vcrit hvt h0 h1 with h | ⟨h, h'⟩
    · exact ⟨1, h⟩
    · obtain ⟨n, hn⟩ := ih _ (by linarith) h' (by push_cast at h2; linarith)
      exact ⟨n + 1, hn⟩

/-- C71: with the voltage held, junction limiting arrives after finitely many iterations, from any voltage, and stays -/
theorem pnj_reaches (vnew vold vt vcrit : ℝ) (hvt : 0 < vt) (hc : vt ≤ vcrit) :
    ∃ N, ∀ n, N ≤ n → (fun v => Limit.pnjLimit vnew v vt vcrit)^[n] vold = vnew := by
  have up : ∀ v, 0 < v → v ≤ vnew → ∃ n, (fun v => Limit.pnjLimit vnew v vt vcrit)^[n] v = vnew := by
    intro v h0 h1
    obtain ⟨k, hk⟩ := exists_nat_gt ((vnew - v) / vt)
    exact up_reaches vnew vt vcrit hvt k v h0 h1 (by rwa [div_lt_iff₀ hvt] at hk)
  have key : ∃ n, (fun v => Limit.pnjLimit vnew v vt vcrit)^[n] vold = vnew := by
    rcases lt_trichotomy vnew vold with h | h | h
    · obtain ⟨-, h2⟩ := Limit.pnj_down vnew vold vt vcrit hvt hc h
      rcases h2 with h2 | ⟨h2, h3, -⟩
      · exact ⟨1, h2⟩
      · obtain ⟨n, hn⟩ := up vcrit (by linarith) h3.le
        exact ⟨n + 1, by rw [Function.iterate_succ_apply]; simp only [h2]; exact hn⟩
    · exact ⟨0, h.symm⟩
    · by_cases h0 : 0 < vold
      · exact up vold h0 h.le
      · have hle := (Limit.pnj_up vnew vold vt vcrit hvt hc h).2
        by_cases hcond : vcrit < vnew ∧ 2 * vt < |vnew - vold|
        · have e : Limit.pnjLimit vnew vold vt vcrit = vt * Real.log (vnew / vt) := by
            unfold Limit.pnjLimit; rw [if_pos hcond, if_neg h0]
          have hpos : 0 < Limit.pnjLimit vnew vold vt vcrit := by
            rw [e]
            refine mul_pos hvt (Real.log_pos ?_)
            rw [lt_div_iff₀ hvt]; linarith [hcond.1]
          obtain ⟨n, hn⟩ := up _ hpos hle
          exact ⟨n + 1, hn⟩
        · exact ⟨1, by change Limit.pnjLimit vnew vold vt vcrit = vnew; unfold Limit.pnjLimit; rw [if_neg hcond]⟩
  obtain ⟨N, hN⟩ := key
  refine ⟨N, fun n hn => ?_⟩
  obtain ⟨m, rfl⟩ := Nat.exists_eq_add_of_le hn
  rw [add_comm, Function.iterate_add_apply, hN, stay _ _ _ hvt]

example : ∃ N, ∀ n, N ≤ n → (fun v => Limit.pnjLimit (5 : ℝ) v 1 2)^[n] (-3) = 5 := pnj_reaches 5 (-3) 1 2 (by norm_num) (by norm_num)

/-! ## the device -/

/-- the state with the voltages of the nodes -/
noncomputable def rest (p : Par) (pol : ℝ) (n : Nodes) : St :=
  ⟨pol * (n.b - n.e), pol * (n.b - n.c), (p.currents (pol * (n.b - n.e)) (pol * (n.b - n.c))).signed pol⟩

theorem iter_volts (p : Par) (pol : ℝ) (n : Nodes) (s : St) (k : ℕ) :
    ((St.doTr p pol n)^[k] s).vbe = (fun v => Limit.pnjLimit (pol * (n.b - n.e)) v p.vt p.vcrit)^[k] s.vbe ∧
    ((St.doTr p pol n)^[k] s).vbc = (fun v => Limit.pnjLimit (pol * (n.b - n.c)) v p.vt p.vcrit)^[k] s.vbc := by
  induction k with
  | zero => exact ⟨rfl, rfl⟩
  | succ k ih =>
    simp only [Function.iterate_succ_apply']
    exact ⟨by rw [← ih.1]; rfl, by rw [← ih.2]; rfl⟩

/-- C71: with the node voltages held, a transistor comes to rest after finitely many iterations, from any state, and stays -/
theorem settles (p : Par) (pol : ℝ) (n : Nodes) (s : St) (hvt : 0 < p.vt) (hc : p.vt ≤ p.vcrit) :
    ∃ N, ∀ k, N ≤ k → (St.doTr p pol n)^[k] s = rest p pol n := by
  obtain ⟨N1, h1⟩ := pnj_reaches (pol * (n.b - n.e)) s.vbe p.vt p.vcrit hvt hc
  obtain ⟨N2, h2⟩ := pnj_reaches (pol * (n.b - n.c)) s.vbc p.vt p.vcrit hvt hc
  refine ⟨max N1 N2 + 1, fun k hk => ?_⟩
  obtain ⟨m, rfl⟩ : ∃ m, k = m + 1 := ⟨k - 1, by omega⟩
  have hv := iter_volts p pol n s (m + 1)
  rw [h1 _ (by omega), h2 _ (by omega)] at hv
  rw [Function.iterate_succ_apply'] at hv ⊢
  generalize (St.doTr p pol n)^[m] s = s' at *
  unfold St.doTr at hv ⊢
  simp only at hv
  unfold rest
  rw [hv.1, hv.2]

/-- C71: at rest, what flows in the elements is what is reported -/
theorem rest_flow (p : Par) (pol : ℝ) (hp : pol * pol = 1) (n : Nodes) :
    let s := rest p pol n
    let o := p.currents (pol * (n.b - n.e)) (pol * (n.b - n.c))
    s.iCE n = pol * o.cce ∧ s.iBE n = pol * o.cpi ∧ s.iBC n = pol * o.cmu ∧
    s.probeIc = s.intoC n ∧ s.probeIb = s.intoB n ∧ s.probeIe = s.intoE n ∧ s.intoC n + s.intoB n + s.intoE n = 0 := by
  intro s o
  have h1 : s.iCE n = pol * o.cce := by
    have e : s.iCE n = pol * (o.cce - ((pol * (n.b - n.e) - pol * (n.b - n.c)) * o.go + pol * (n.b - n.e) * o.gm))
        + o.go * (n.c - n.e) + o.gm * (n.b - n.e) := rfl
    rw [e]
    linear_combination (-o.gm * (n.b - n.e) - o.go * (n.c - n.e)) * hp
  have h2 : s.iBE n = pol * o.cpi := by
    have e : s.iBE n = pol * (o.cpi - pol * (n.b - n.e) * o.gpi) + o.gpi * (n.b - n.e) := rfl
    rw [e]
    linear_combination (-o.gpi * (n.b - n.e)) * hp
  have h3 : s.iBC n = pol * o.cmu := by
    have e : s.iBC n = pol * (o.cmu - pol * (n.b - n.c) * o.gmu) + o.gmu * (n.b - n.c) := rfl
    rw [e]
    linear_combination (-o.gmu * (n.b - n.c)) * hp
  refine ⟨h1, h2, h3, ?_, ?_, ?_, ?_⟩
  · unfold St.intoC; rw [h1, h3]; rfl
  · unfold St.intoB; rw [h2, h3]; rfl
  · unfold St.intoE; rw [h1, h2]; show -(pol * o.cce) - pol * o.cpi = _; rfl
  · unfold St.intoC St.intoB St.intoE; ring

/-- C71: a pnp transistor is the mirror image -/
theorem mirror (p : Par) (n : Nodes) :
    let n' : Nodes := ⟨-n.c, -n.b, -n.e⟩
    (rest p (-1) n').iCE n' = -(rest p 1 n).iCE n ∧ (rest p (-1) n').iBE n' = -(rest p 1 n).iBE n ∧
    (rest p (-1) n').iBC n' = -(rest p 1 n).iBC n := by
  intro n'
  have h1 := rest_flow p 1 (by norm_num) n
  have h2 := rest_flow p (-1) (by norm_num) n'
  simp only at h1 h2
  have e1 : (-1 : ℝ) * (n'.b - n'.e) = 1 * (n.b - n.e) := by simp only [n']; ring
  have e2 : (-1 : ℝ) * (n'.b - n'.c) = 1 * (n.b - n.c) := by simp only [n']; ring
  rw [e1, e2] at h2
  refine ⟨?_, ?_, ?_⟩
  · rw [h1.1, h2.1]; ring
  · rw [h1.2.1, h2.2.1]; ring
  · rw [h1.2.2.1, h2.2.2.1]; ring

/-! ## the collector current -/

/-- what should flow into an npn transistor: the transport current from collector to emitter, the base currents from the base -/
noncomputable def Par.specC (p : Par) (vbe vbc : ℝ) : ℝ := p.transport vbe vbc - p.baseC vbc
noncomputable def Par.specB (p : Par) (vbe vbc : ℝ) : ℝ := p.baseE vbe + p.baseC vbc
noncomputable def Par.specE (p : Par) (vbe vbc : ℝ) : ℝ := -p.transport vbe vbc - p.baseE vbe

/-- C71: what flows: the base current is right; the base-collector current is subtracted from the collector current a second time, and
missing from the emitter current -/
theorem terminals (p : Par) (n : Nodes) (h : p.On (n.b - n.e) (n.b - n.c)) :
    let s := rest p 1 n
    s.intoB n = p.specB (n.b - n.e) (n.b - n.c) ∧
    s.intoC n = p.specC (n.b - n.e) (n.b - n.c) - p.baseC (n.b - n.c) ∧
    s.intoE n = p.specE (n.b - n.e) (n.b - n.c) + p.baseC (n.b - n.c) := by
  intro s
  have hf := rest_flow p 1 (by norm_num) n
  simp only [one_mul] at hf
  have hs := slopes p (fun _ => n.b - n.e) (fun _ => n.b - n.c) 0 0 0 (hasDerivAt_const _ _) (hasDerivAt_const _ _) h
  simp only at hs
  obtain ⟨-, h1, -, h2, -, h3⟩ := hs
  refine ⟨?_, ?_, ?_⟩
  · unfold St.intoB; rw [hf.2.1, hf.2.2.1, h1, h2]; rfl
  · unfold St.intoC; rw [hf.1, hf.2.2.1, h2, h3]; unfold Par.specC; ring
  · unfold St.intoE; rw [hf.1, hf.2.1, h1, h3]; unfold Par.specE; ring

/-- C71: it is right with no voltage between base and collector; forward current gain is `bf` -/
theorem forward_gain (p : Par) (n : Nodes) (h : p.On (n.b - n.e) (n.b - n.c)) (h0 : n.b = n.c) (hb : p.bF ≠ 0) (hl : p.leakE = 0)
    (he : p.ivar = 0) (ho : p.oik = 0) (hor : p.oikr = 0) : (rest p 1 n).intoC n = p.bF * (rest p 1 n).intoB n := by
  obtain ⟨h1, h2, -⟩ := terminals p n h
  rw [h1, h2]
  have hz : n.b - n.c = 0 := by rw [h0, sub_self]
  rw [hz]
  have e1 : p.baseC 0 = 0 := by unfold Par.baseC Par.iR expo; simp
  have e2 : p.iR 0 = 0 := by unfold Par.iR expo; simp
  have e3 : p.charge (n.b - n.e) 0 = 1 := by
    have : p.roll (n.b - n.e) 0 = 1 := by unfold Par.roll; rw [ho, hor]; ring
    unfold Par.charge Par.early; rw [this, Real.sqrt_one, he]; norm_num
  have e4 : p.baseE (n.b - n.e) = p.iF (n.b - n.e) / p.bF := by unfold Par.baseE expo; rw [hl]; ring
  unfold Par.specC Par.specB Par.transport
  rw [e1, e2, e3, e4]
  field_simp
  ring

/-- C71, violated: with emitter and base joined the gain from base to emitter is not `br` but one more -/
theorem reverse_gain (p : Par) (n : Nodes) (h : p.On (n.b - n.e) (n.b - n.c)) (h0 : n.b = n.e) (hb : p.bR ≠ 0) (hl : p.leakC = 0)
    (he : p.ivaf = 0) (ho : p.oik = 0) (hor : p.oikr = 0) : (rest p 1 n).intoE n = (p.bR + 1) * (rest p 1 n).intoB n := by
  obtain ⟨h1, -, h2⟩ := terminals p n h
  rw [h1, h2]
  have hz : n.b - n.e = 0 := by rw [h0, sub_self]
  rw [hz]
  have e1 : p.baseE 0 = 0 := by unfold Par.baseE Par.iF expo; simp
  have e2 : p.iF 0 = 0 := by unfold Par.iF expo; simp
  have e3 : p.charge 0 (n.b - n.c) = 1 := by
    have : p.roll 0 (n.b - n.c) = 1 := by unfold Par.roll; rw [ho, hor]; ring
    unfold Par.charge Par.early; rw [this, Real.sqrt_one, he]; norm_num
  have e4 : p.baseC (n.b - n.c) = p.iR (n.b - n.c) / p.bR := by unfold Par.baseC expo; rw [hl]; ring
  unfold Par.specE Par.specB Par.transport
  rw [e1, e2, e3, e4]
  field_simp
  ring

/-- C71, violated: what is loaded between collector and emitter is not the tangent of the current reported there; the slope for the
base-collector voltage lacks `gmu` -/
theorem cce_slope_wrong (p : Par) (vbe vbc : ℝ) (h : p.On vbe vbc) :
    HasDerivAt (fun x => (p.transport vbe x - p.baseC x)) (-(p.currents vbe vbc).go - (p.currents vbe vbc).gmu) vbc := by
  have hs := slopes p (fun _ => vbe) (fun x => x) 0 1 vbc (hasDerivAt_const _ _) (hasDerivAt_id' vbc) h
  simp only at hs
  obtain ⟨h1, -, -, -, h2, -⟩ := hs
  exact (h1.sub h2).congr_deriv (by ring)

/-- power taken by the device -/
noncomputable def power (c b e : ℝ) (n : Nodes) : ℝ := c * n.c + b * n.b + e * n.e

theorem expo_mono {is vtn gmin : ℝ} (hi : 0 ≤ is) (hv : 0 < vtn) (hg : 0 ≤ gmin) : Monotone (expo is vtn gmin) := by
  intro a b hab
  unfold expo
  have h1 : Real.exp (a / vtn) ≤ Real.exp (b / vtn) := Real.exp_le_exp.mpr (div_le_div_of_nonneg_right hab hv.le)
  have h2 := mul_le_mul_of_nonneg_left h1 hi
  have h3 := mul_le_mul_of_nonneg_left hab hg
  nlinarith

theorem expo_sign {is vtn gmin : ℝ} (hi : 0 ≤ is) (hv : 0 < vtn) (hg : 0 ≤ gmin) (v : ℝ) : 0 ≤ v * expo is vtn gmin v := by
  have h0 : expo is vtn gmin 0 = 0 := by unfold expo; simp
  rcases le_total 0 v with h | h
  · have := expo_mono hi hv hg h; rw [h0] at this; exact mul_nonneg h this
  · have := expo_mono hi hv hg h; rw [h0] at this; exact mul_nonneg_of_nonpos_of_nonpos h this

/-- C71: as specified, with the same junction for transport in both directions, a transistor never delivers power -/
theorem spec_passive (p : Par) (n : Nodes) (hvt : 0 < p.vt) (hn : p.nr = p.nf) (hn0 : 0 < p.nf)
    (his : p.isc = p.ise) (hi0 : 0 ≤ p.ise) (hg : 0 ≤ p.gmin) (hbF : 0 < p.bF) (hbR : 0 < p.bR) (hlE : 0 ≤ p.leakE) (hlC : 0 ≤ p.leakC)
    (hne : 0 < p.ne) (hnc : 0 < p.nc) (he : 0 < p.early (n.b - n.e) (n.b - n.c)) :
    0 ≤ power (p.specC (n.b - n.e) (n.b - n.c)) (p.specB (n.b - n.e) (n.b - n.c)) (p.specE (n.b - n.e) (n.b - n.c)) n := by
  have hv : 0 < p.vt * p.nf := mul_pos hvt hn0
  have e : power (p.specC (n.b - n.e) (n.b - n.c)) (p.specB (n.b - n.e) (n.b - n.c)) (p.specE (n.b - n.e) (n.b - n.c)) n =
      ((n.b - n.e) - (n.b - n.c)) * p.transport (n.b - n.e) (n.b - n.c) + (n.b - n.e) * p.baseE (n.b - n.e) + (n.b - n.c) * p.baseC (n.b - n.c) := by
    unfold power Par.specC Par.specB Par.specE; ring
  rw [e]
  generalize n.b - n.e = u at *
  generalize n.b - n.c = w at *
  have hq : 0 < p.charge u w := by
    unfold Par.charge
    have := Real.sqrt_nonneg (p.roll u w)
    exact div_pos (by linarith) he
  have t1 : 0 ≤ (u - w) * p.transport u w := by
    unfold Par.transport
    rw [mul_div_assoc']
    refine div_nonneg ?_ hq.le
    have hR : p.iR = p.iF := by unfold Par.iR Par.iF; rw [hn, his]
    rw [hR]
    have hm : Monotone p.iF := expo_mono hi0 hv hg
    rcases le_total u w with hh | hh
    · exact mul_nonneg_of_nonpos_of_nonpos (by linarith) (by linarith [hm hh])
    · exact mul_nonneg (by linarith) (by linarith [hm hh])
  have t2 : 0 ≤ u * p.baseE u := by
    unfold Par.baseE Par.iF
    rw [mul_add, mul_div_assoc']
    exact add_nonneg (div_nonneg (expo_sign hi0 hv hg u) hbF.le) (expo_sign hlE (mul_pos hne hvt) le_rfl u)
  have t3 : 0 ≤ w * p.baseC w := by
    unfold Par.baseC Par.iR
    rw [mul_add, mul_div_assoc', hn, his]
    exact add_nonneg (div_nonneg (expo_sign hi0 hv hg w) hbR.le) (expo_sign hlC (mul_pos hnc hvt) le_rfl w)
  linarith

/-- C71, violated: a transistor with a reverse gain of 1/100 delivers power, with 3 and 1 thermal voltages at its junctions -/
theorem delivers : ∃ (p : Par) (n : Nodes), p.On (n.b - n.e) (n.b - n.c) ∧ 0 < p.vt ∧ p.nr = p.nf ∧ 0 < p.nf ∧ p.isc = p.ise ∧ 0 < p.ise ∧
    0 < p.bF ∧ 0 < p.bR ∧ power ((rest p 1 n).intoC n) ((rest p 1 n).intoB n) ((rest p 1 n).intoE n) n < 0 := by
  let p : Par := { vt := 1, ise := 1, isc := 1, bF := 100, bR := 1 / 100 }
  let n : Nodes := ⟨2, 3, 0⟩
  have hroll : p.roll (n.b - n.e) (n.b - n.c) = 1 := by unfold Par.roll; simp [p]
  have hearly : p.early (n.b - n.e) (n.b - n.c) = 1 := by unfold Par.early; simp [p]
  have hon : p.On (n.b - n.e) (n.b - n.c) := ⟨by norm_num [p, n], by norm_num [p, n], by rw [hearly]; norm_num, by rw [hroll]; norm_num⟩
  refine ⟨p, n, hon, by norm_num [p], rfl, by norm_num [p], rfl, by norm_num [p], by norm_num [p], by norm_num [p], ?_⟩
  obtain ⟨h1, h2, h3⟩ := terminals p n hon
  rw [h1, h2, h3]
  have hq : p.charge (n.b - n.e) (n.b - n.c) = 1 := by unfold Par.charge; rw [hroll, hearly, Real.sqrt_one]; norm_num
  have e1 : n.b - n.e = 3 := by norm_num [n]
  have e2 : n.b - n.c = 1 := by norm_num [n]
  have x3 : Real.exp 3 = Real.exp 1 ^ 3 := by rw [← Real.exp_nat_mul]; norm_num
  have hF : p.iF 3 = Real.exp 1 ^ 3 - 1 := by
    have : p.iF 3 = 1 * (Real.exp (3 / (1 * 1)) - 1) + 0 * 3 := rfl
    rw [this, show (3 : ℝ) / (1 * 1) = 3 by norm_num, x3]; ring
  have hR : p.iR 1 = Real.exp 1 - 1 := by
    have : p.iR 1 = 1 * (Real.exp (1 / (1 * 1)) - 1) + 0 * 1 := rfl
    rw [this, show (1 : ℝ) / (1 * 1) = 1 by norm_num]; ring
  have hE : p.baseE 3 = (Real.exp 1 ^ 3 - 1) / 100 := by
    unfold Par.baseE; rw [hF]; unfold expo; simp [p]
  have hC : p.baseC 1 = (Real.exp 1 - 1) * 100 := by
    unfold Par.baseC; rw [hR]; unfold expo; simp [p]
  rw [e1, e2] at hq ⊢
  unfold power Par.specC Par.specB Par.specE Par.transport
  rw [hq, hF, hR, hE, hC]
  have b1 := Real.exp_one_lt_d9
  have b2 := Real.exp_one_gt_d9
  have b3 : Real.exp 1 ^ 3 < 21 := by
    have : Real.exp 1 ^ 3 ≤ (2.72 : ℝ) ^ 3 := pow_le_pow_left₀ (Real.exp_pos 1).le (by linarith) 3
    norm_num at this ⊢; linarith
  simp only [n]
  nlinarith

/-! ## examples, bypass, temperature -/

/-- a transistor with everything, in saturation -/
noncomputable def sample : Par :=
  { vt := 1 / 40, ise := 1 / 10 ^ 16, isc := 1 / 10 ^ 16, leakE := 1 / 10 ^ 15, leakC := 1 / 10 ^ 15, bF := 100, bR := 2, ivaf := 1 / 50
    ivar := 1 / 10, oik := 100, oikr := 50 }

theorem sample_on (vbe vbc : ℝ) (h1 : 0 ≤ vbe) (h2 : vbe ≤ 1) (h3 : 0 ≤ vbc) (h4 : vbc ≤ 1) : sample.On vbe vbc := by
  have hF : 0 ≤ sample.iF vbe := by
    have : sample.iF vbe = 1 / 10 ^ 16 * (Real.exp (vbe / (1 / 40 * 1)) - 1) + 0 * vbe := rfl
    rw [this]
    have := Real.one_le_exp (show 0 ≤ vbe / (1 / 40 * 1) by positivity)
    have : 0 ≤ 1 / (10 : ℝ) ^ 16 * (Real.exp (vbe / (1 / 40 * 1)) - 1) := mul_nonneg (by positivity) (by linarith)
    linarith
  have hR : 0 ≤ sample.iR vbc := by
    have : sample.iR vbc = 1 / 10 ^ 16 * (Real.exp (vbc / (1 / 40 * 1)) - 1) + 0 * vbc := rfl
    rw [this]
    have := Real.one_le_exp (show 0 ≤ vbc / (1 / 40 * 1) by positivity)
    have : 0 ≤ 1 / (10 : ℝ) ^ 16 * (Real.exp (vbc / (1 / 40 * 1)) - 1) := mul_nonneg (by positivity) (by linarith)
    linarith
  refine ⟨?_, ?_, ?_, ?_⟩
  · show -5 * (1 / 40 * 1) < vbe; linarith
  · show -5 * (1 / 40 * 1) < vbc; linarith
  · show 1 - 1 / 50 * vbc - 1 / 10 * vbe ≠ 0; intro h; linarith
  · show 0 < 1 + 4 * (100 * sample.iF vbe + 50 * sample.iR vbc); linarith

example : sample.On (7 / 10) (1 / 2) ∧ 0 < sample.vt ∧ sample.vt ≤ sample.vcrit :=
  ⟨sample_on _ _ (by norm_num) (by norm_num) (by norm_num) (by norm_num), by norm_num [sample], by norm_num [sample]⟩

example : ∃ N, ∀ k, N ≤ k → (St.doTr sample (-1) ⟨-3, -2, -1⟩)^[k] ⟨0, 0, sample.currents 0 0⟩ = rest sample (-1) ⟨-3, -2, -1⟩ :=
  settles _ _ _ _ (by norm_num [sample]) (by norm_num [sample])

/-- C71, violated (efficiency): the voltage to the substrate is compared with the opposite sign, so a transistor that is at rest is
evaluated again unless that voltage is close to zero -/
theorem never_bypassed (conv : Prop) (p : Par) (pol vntol reltol : ℝ) (n : Nodes) (vs : ℝ) (hr : reltol < 2)
    (hv : vntol < (2 - reltol) * |pol * (n.c - vs)|) : (rest p pol n).needsEval conv pol vntol reltol n vs (gatherCs pol n vs) := by
  right
  intro h
  have h3 := h.2.2
  unfold conchk gatherCs at h3
  have e : pol * (n.c - vs) - pol * (vs - n.c) = 2 * (pol * (n.c - vs)) := by ring
  rw [e, abs_mul, abs_two] at h3
  nlinarith

example : (1 : ℝ) / 1000 < 2 ∧ (1 : ℝ) / 1000000 < (2 - 1 / 1000) * |1 * ((5 : ℝ) - 0)| := by norm_num

/-- C71: at the nominal temperature the values are those given -/
theorem tdp_nominal (k q kq ref tnom eg xti xtb nl mj : ℝ) (x : Tdp) (ht : 0 < tnom) (hr : 0 < ref)
    (hc : 1 + mj * (4 / 10000 * (tnom - ref) - (x.pot - (x.pot - (-2 * (tnom * kq) * (3 / 2 * Real.log (tnom / ref) + q *
      (-(116 / 100 - 702 / 1000000 * tnom * tnom / (tnom + 1108)) / (2 * (tnom * k)) + 11150877 / 10000000 / (k * (ref + ref)))))) / (tnom / ref)) /
      ((x.pot - (-2 * (tnom * kq) * (3 / 2 * Real.log (tnom / ref) + q *
      (-(116 / 100 - 702 / 1000000 * tnom * tnom / (tnom + 1108)) / (2 * (tnom * k)) + 11150877 / 10000000 / (k * (ref + ref)))))) / (tnom / ref))) ≠ 0) :
    tdp k q kq ref tnom tnom eg xti xtb nl mj x = x := by
  have h1 : tnom / tnom = 1 := div_self ht.ne'
  have h2 : tnom / ref ≠ 0 := (div_pos ht hr).ne'
  unfold tdp
  simp only [h1, sub_self, Real.log_one, zero_mul, mul_zero, zero_div, add_zero, Real.exp_zero, mul_one, div_one]
  generalize -2 * (tnom * kq) * (3 / 2 * Real.log (tnom / ref) + q *
      (-(116 / 100 - 702 / 1000000 * tnom * tnom / (tnom + 1108)) / (2 * (tnom * k)) + 11150877 / 10000000 / (k * (ref + ref)))) = pb at hc ⊢
  have h3 : tnom / ref * ((x.pot - pb) / (tnom / ref)) + pb = x.pot := by
    rw [mul_div_cancel₀ _ h2]; ring
  rw [h3, div_mul_cancel₀ _ hc]

example : tdp 1 0 1 300 300 300 1 3 1 2 (1 / 3) ⟨1, 100, 1, 3 / 4, 2⟩ = ⟨1, 100, 1, 3 / 4, 2⟩ :=
  tdp_nominal _ _ _ _ _ _ _ _ _ _ _ (by norm_num) (by norm_num) (by norm_num)

/-- saturation current grows with temperature -/
theorem tdp_is_mono (k q kq ref tnom temp eg xti xtb nl mj : ℝ) (x : Tdp) (ht : 0 < tnom) (h : tnom < temp) (hk : 0 < kq) (he : 0 < eg)
    (hx : 0 ≤ xti) (hi : 0 < x.is) : x.is < (tdp k q kq ref tnom temp eg xti xtb nl mj x).is := by
  have h1 : 1 < temp / tnom := by rw [lt_div_iff₀ ht]; linarith
  have : 0 < (temp / tnom - 1) * eg / (temp * kq) + xti * Real.log (temp / tnom) := by
    have a : 0 < (temp / tnom - 1) * eg / (temp * kq) := div_pos (mul_pos (by linarith) he) (mul_pos (by linarith) hk)
    have b : 0 ≤ xti * Real.log (temp / tnom) := mul_nonneg hx (Real.log_nonneg h1.le)
    linarith
  have := Real.one_lt_exp_iff.mpr this
  show x.is < x.is * _
  nlinarith

/-- C71: saturation current, gain and leakage at a temperature do not depend on the temperature the model was measured at: taking them
to `t2` and from there to `t3` is the same as taking them to `t3` -/
theorem tdp_steps (k q kq ref t1 t2 t3 eg xti xtb nl mj : ℝ) (x : Tdp) (h1 : 0 < t1) (h2 : 0 < t2) (h3 : 0 < t3) (hk : kq ≠ 0) :
    (tdp k q kq ref t2 t3 eg xti xtb nl mj (tdp k q kq ref t1 t2 eg xti xtb nl mj x)).is = (tdp k q kq ref t1 t3 eg xti xtb nl mj x).is ∧
    (tdp k q kq ref t2 t3 eg xti xtb nl mj (tdp k q kq ref t1 t2 eg xti xtb nl mj x)).beta = (tdp k q kq ref t1 t3 eg xti xtb nl mj x).beta ∧
    (tdp k q kq ref t2 t3 eg xti xtb nl mj (tdp k q kq ref t1 t2 eg xti xtb nl mj x)).leak = (tdp k q kq ref t1 t3 eg xti xtb nl mj x).leak := by
  have hl : Real.log (t3 / t1) = Real.log (t2 / t1) + Real.log (t3 / t2) := by
    rw [Real.log_div h3.ne' h1.ne', Real.log_div h2.ne' h1.ne', Real.log_div h3.ne' h2.ne']; ring
  have hf : (t3 / t1 - 1) * eg / (t3 * kq) + xti * Real.log (t3 / t1)
      = ((t2 / t1 - 1) * eg / (t2 * kq) + xti * Real.log (t2 / t1)) + ((t3 / t2 - 1) * eg / (t3 * kq) + xti * Real.log (t3 / t2)) := by
    rw [hl]
    have := h1.ne'; have := h2.ne'; have := h3.ne'
    field_simp
    ring
  refine ⟨?_, ?_, ?_⟩
  · show x.is * _ * _ = x.is * _
    rw [hf]
    generalize (t2 / t1 - 1) * eg / (t2 * kq) + xti * Real.log (t2 / t1) = f12
    generalize (t3 / t2 - 1) * eg / (t3 * kq) + xti * Real.log (t3 / t2) = f23
    rw [Real.exp_add]; ring
  · show x.beta * _ * _ = x.beta * _
    rw [hl, add_mul, Real.exp_add]; ring
  · show x.leak * _ / _ * _ / _ = x.leak * _ / _
    rw [hf]
    generalize (t2 / t1 - 1) * eg / (t2 * kq) + xti * Real.log (t2 / t1) = f12
    generalize (t3 / t2 - 1) * eg / (t3 * kq) + xti * Real.log (t3 / t2) = f23
    rw [add_div, Real.exp_add, hl, add_mul, Real.exp_add]
    have e1 := (Real.exp_pos (Real.log (t2 / t1) * xtb)).ne'
    have e2 := (Real.exp_pos (Real.log (t3 / t2) * xtb)).ne'
    field_simp

example : (tdp 1 1 1 300 310 320 1 3 1 2 (1 / 3) (tdp 1 1 1 300 300 310 1 3 1 2 (1 / 3) ⟨1, 100, 1, 3 / 4, 2⟩)).is
    = (tdp 1 1 1 300 300 320 1 3 1 2 (1 / 3) ⟨1, 100, 1, 3 / 4, 2⟩).is :=
  (tdp_steps 1 1 1 300 300 310 320 1 3 1 2 (1 / 3) _ (by norm_num) (by norm_num) (by norm_num) (by norm_num)).1

/-- the part of the potential that depends on temperature alone -/
noncomputable def potShift (k q kq ref t : ℝ) : ℝ :=
  -2 * (t * kq) * (3 / 2 * Real.log (t / ref) + q * (-(116 / 100 - 702 / 1000000 * t * t / (t + 1108)) / (2 * (t * k)) + 11150877 / 10000000 / (k * (ref + ref))))

/-- C71: the potential of a junction goes in proportion to temperature apart from the shift -/
theorem tdp_pot (k q kq ref tnom temp eg xti xtb nl mj : ℝ) (x : Tdp) (hr : 0 < ref) :
    (tdp k q kq ref tnom temp eg xti xtb nl mj x).pot - potShift k q kq ref temp = temp / tnom * (x.pot - potShift k q kq ref temp) := by
  show temp / ref * ((x.pot - potShift k q kq ref temp) / (tnom / ref)) + potShift k q kq ref temp - potShift k q kq ref temp = _
  have := hr.ne'
  by_cases h : tnom = 0
  · simp [h]
  · field_simp
    ring

/-- C71, violated: the shift taken off the given potential is that of the new temperature, not of the nominal one (d_bjt.model:388, 398-399,
408-409): the potential depends on the temperature the model was measured at; on the way over `t2` it is off by this much -/
theorem tdp_pot_steps (k q kq ref t1 t2 t3 eg xti xtb nl mj : ℝ) (x : Tdp) (hr : 0 < ref) (h1 : t1 ≠ 0) (h2 : t2 ≠ 0) :
    (tdp k q kq ref t2 t3 eg xti xtb nl mj (tdp k q kq ref t1 t2 eg xti xtb nl mj x)).pot - (tdp k q kq ref t1 t3 eg xti xtb nl mj x).pot
      = (potShift k q kq ref t3 - potShift k q kq ref t2) * (t3 / t1 - t3 / t2) := by
  have a := tdp_pot k q kq ref t2 t3 eg xti xtb nl mj (tdp k q kq ref t1 t2 eg xti xtb nl mj x) hr
  have b := tdp_pot k q kq ref t1 t2 eg xti xtb nl mj x hr
  have c := tdp_pot k q kq ref t1 t3 eg xti xtb nl mj x hr
  generalize (tdp k q kq ref t2 t3 eg xti xtb nl mj (tdp k q kq ref t1 t2 eg xti xtb nl mj x)).pot = p at *
  generalize (tdp k q kq ref t1 t2 eg xti xtb nl mj x).pot = p2 at *
  generalize (tdp k q kq ref t1 t3 eg xti xtb nl mj x).pot = p3 at *
  generalize potShift k q kq ref t3 = s3 at *
  generalize potShift k q kq ref t2 = s2 at *
  have e2 : p2 = t2 / t1 * (x.pot - s2) + s2 := by linarith
  have e : t3 / t2 * (t2 / t1) = t3 / t1 := by field_simp
  have e3 : t3 / t2 * (p2 - s3) = t3 / t1 * (x.pot - s2) + t3 / t2 * (s2 - s3) := by rw [e2, ← e]; ring
  rw [e3] at a
  linarith

/-- with a gap that does not change: the shift at 600 is that of 300 and more, so that the way matters -/
example : ∃ x : Tdp, (tdp 1 0 1 300 600 900 1 3 1 2 (1 / 3) (tdp 1 0 1 300 300 600 1 3 1 2 (1 / 3) x)).pot ≠ (tdp 1 0 1 300 300 900 1 3 1 2 (1 / 3) x).pot := by
  refine ⟨⟨1, 100, 1, 3 / 4, 2⟩, fun h => ?_⟩
  have := tdp_pot_steps 1 0 1 300 300 600 900 1 3 1 2 (1 / 3) ⟨1, 100, 1, 3 / 4, 2⟩ (by norm_num) (by norm_num) (by norm_num)
  rw [h, sub_self] at this
  have l2 : 0 < Real.log ((600 : ℝ) / 300) := Real.log_pos (by norm_num)
  have l3 : Real.log ((600 : ℝ) / 300) < Real.log (900 / 300) := Real.log_lt_log (by norm_num) (by norm_num)
  unfold potShift at this
  norm_num at this l2 l3
  nlinarith

/-! ## charges -/

theorem power_deriv (pot cz mj v : ℝ) (hpot : 0 < pot) (hm : mj ≠ 1) (ha : 0 < 1 - v / pot) :
    HasDerivAt (fun v => pot * cz * (1 - (1 - v / pot) * (1 - v / pot) ^ (-mj)) / (1 - mj)) (cz * (1 - v / pot) ^ (-mj)) v := by
  have h1 : HasDerivAt (fun v : ℝ => 1 - v / pot) (-(1 / pot)) v := ((hasDerivAt_id v).div_const pot).const_sub 1
  have h2 : HasDerivAt (fun v : ℝ => (1 - v / pot) ^ (-mj)) (-(1 / pot) * (-mj) * (1 - v / pot) ^ (-mj - 1)) v :=
    h1.rpow_const (Or.inl ha.ne')
  have h3 : HasDerivAt (fun v : ℝ => (1 - v / pot) * (1 - v / pot) ^ (-mj)) _ v := h1.mul h2
  have h4 : HasDerivAt (fun v => pot * cz * (1 - (1 - v / pot) * (1 - v / pot) ^ (-mj)) / (1 - mj)) _ v :=
    ((h3.const_sub 1).const_mul (pot * cz)).div_const (1 - mj)
  refine h4.congr_deriv ?_
  have e : (1 - v / pot) * (1 - v / pot) ^ (-mj - 1) = (1 - v / pot) ^ (-mj) := by
    rw [Real.rpow_sub ha, Real.rpow_one]; exact mul_div_cancel₀ _ ha.ne'
  have e' : (1 - v / pot) * (-(1 / pot) * -mj * (1 - v / pot) ^ (-mj - 1)) = 1 / pot * mj * (1 - v / pot) ^ (-mj) := by
    rw [← e]; ring
  rw [e']
  have hm' : (1 : ℝ) - mj ≠ 0 := sub_ne_zero.mpr (Ne.symm hm)
  generalize (1 - v / pot) ^ (-mj) = z
  field_simp
  ring

/-- C71: the capacitance of a junction is the slope of its charge, also where forward bias is replaced by a straight line -/
theorem depletion_slope (cz pot mj fc v : ℝ) (hpot : 0 < pot) (hfc : fc < 1) (hm : mj ≠ 1) :
    HasDerivAt (fun v => (depletion cz pot mj fc v).1) (depletion cz pot mj fc v).2 v := by
  have hm' : (1 : ℝ) - mj ≠ 0 := sub_ne_zero.mpr (Ne.symm hm)
  have h1 : 0 < 1 - fc := by linarith
  set f2 := Real.exp ((1 + mj) * Real.log (1 - fc)) with hf2
  set f1 := pot * (1 - Real.exp ((1 - mj) * Real.log (1 - fc))) / (1 - mj) with hf1
  have f20 : f2 ≠ 0 := (Real.exp_pos _).ne'
  set A : ℝ → ℝ := fun v => pot * cz * (1 - (1 - v / pot) * (1 - v / pot) ^ (-mj)) / (1 - mj) with hA
  set B : ℝ → ℝ := fun v => cz * f1 + cz / f2 * ((1 - fc * (1 + mj)) * (v - fc * pot) + mj / (2 * pot) * (v * v - fc * pot * (fc * pot))) with hB
  have dA : ∀ v, v ≤ fc * pot → HasDerivAt A (cz * (1 - v / pot) ^ (-mj)) v := by
    intro v hv
    refine power_deriv pot cz mj v hpot hm ?_
    have : v / pot ≤ fc := by rw [div_le_iff₀ hpot]; exact hv
    linarith
  have dB : ∀ v, HasDerivAt B (cz / f2 * (1 - fc * (1 + mj) + mj * v / pot)) v := by
    intro v
    have a1 : HasDerivAt (fun v : ℝ => (1 - fc * (1 + mj)) * (v - fc * pot)) ((1 - fc * (1 + mj)) * 1) v :=
      ((hasDerivAt_id v).sub_const _).const_mul _
    have a2 : HasDerivAt (fun v : ℝ => mj / (2 * pot) * (v * v - fc * pot * (fc * pot))) (mj / (2 * pot) * (1 * v + v * 1)) v :=
      (((hasDerivAt_id v).mul (hasDerivAt_id v)).sub_const _).const_mul _
    have : HasDerivAt B _ v := ((a1.add a2).const_mul (cz / f2)).const_add (cz * f1)
    refine this.congr_deriv ?_
    field_simp
    ring
  have val : ∀ v, (depletion cz pot mj fc v).1 = if v < fc * pot then A v else B v := by
    intro v; unfold depletion; simp only; split <;> rfl
  have slo : (depletion cz pot mj fc v).2 = if v < fc * pot then cz * (1 - v / pot) ^ (-mj) else cz / f2 * (1 - fc * (1 + mj) + mj * v / pot) := by
    unfold depletion; simp only; split <;> rfl
  rcases lt_trichotomy v (fc * pot) with h | h | h
  · rw [slo, if_pos h]
    refine (dA v h.le).congr_of_eventuallyEq ?_
    filter_upwards [gt_mem_nhds h] with x hx
    rw [val, if_pos hx]
  · have hd : v / pot = fc := by rw [h]; field_simp
    have eS : cz * (1 - v / pot) ^ (-mj) = cz / f2 * (1 - fc * (1 + mj) + mj * v / pot) := by
      rw [mul_div_assoc, hd]
      have : f2 = (1 - fc) * (1 - fc) ^ mj := by
        rw [hf2, mul_comm, Real.exp_mul, Real.exp_log h1, Real.rpow_add h1, Real.rpow_one]
      rw [this, Real.rpow_neg h1.le]
      have hp : (1 - fc) ^ mj ≠ 0 := (Real.rpow_pos_of_pos h1 _).ne'
      field_simp
      ring
    have eV : A v = B v := by
      simp only [hA, hB]
      rw [hd, h, sub_self, sub_self]
      have : (1 - fc) * (1 - fc) ^ (-mj) = Real.exp ((1 - mj) * Real.log (1 - fc)) := by
        rw [mul_comm (1 - mj), Real.exp_mul, Real.exp_log h1, sub_eq_add_neg 1 mj, Real.rpow_add h1, Real.rpow_one]
      rw [this, hf1]
      ring
    rw [slo, if_neg (by rw [h]; exact lt_irrefl _), ← eS]
    refine Mos.hasDerivAt_either A B _ _ v (dA v h.le) ?_ eV fun x => ?_
    · rw [eS]; exact dB v
    · simp only [val]; split
      · left; rfl
      · right; rfl
  · rw [slo, if_neg (not_lt.mpr h.le)]
    refine (dB v).congr_of_eventuallyEq ?_
    filter_upwards [lt_mem_nhds h] with x hx
    rw [val, if_neg (not_lt.mpr (le_of_lt hx))]

/-- C71: the same for the substrate -/
theorem substrate_slope (cz vj mj v : ℝ) (hvj : 0 < vj) (hm : mj ≠ 1) :
    HasDerivAt (fun v => (substrate cz vj mj v).1) (substrate cz vj mj v).2 v := by
  set A : ℝ → ℝ := fun v => vj * cz * (1 - (1 - v / vj) * (1 - v / vj) ^ (-mj)) / (1 - mj) with hA
  set B : ℝ → ℝ := fun v => v * cz * (1 + mj * v / (2 * vj)) with hB
  have dA : ∀ v, v ≤ 0 → HasDerivAt A (cz * (1 - v / vj) ^ (-mj)) v := by
    intro v hv
    refine power_deriv vj cz mj v hvj hm ?_
    have := div_nonpos_of_nonpos_of_nonneg hv hvj.le
    linarith
  have dB : ∀ v, HasDerivAt B (cz * (1 + mj * v / vj)) v := by
    intro v
    have a1 : HasDerivAt (fun v : ℝ => 1 + mj * v / (2 * vj)) (mj * 1 / (2 * vj)) v :=
      (((hasDerivAt_id v).const_mul mj).div_const _).const_add 1
    have : HasDerivAt B _ v := ((hasDerivAt_id v).mul_const cz).mul a1
    refine this.congr_deriv ?_
    simp only [id_eq]
    field_simp
    ring
  have val : ∀ v, (substrate cz vj mj v).1 = if v < 0 then A v else B v := by
    intro v; unfold substrate; split <;> rfl
  have slo : (substrate cz vj mj v).2 = if v < 0 then cz * (1 - v / vj) ^ (-mj) else cz * (1 + mj * v / vj) := by
    unfold substrate; split <;> rfl
  rcases lt_trichotomy v 0 with h | h | h
  · rw [slo, if_pos h]
    refine (dA v h.le).congr_of_eventuallyEq ?_
    filter_upwards [gt_mem_nhds h] with x hx
    rw [val, if_pos hx]
  · rw [slo, if_neg (by rw [h]; exact lt_irrefl _)]
    have dA0 := dA v h.le
    have eS : cz * (1 - v / vj) ^ (-mj) = cz * (1 + mj * v / vj) := by rw [h]; simp
    rw [eS] at dA0
    refine Mos.hasDerivAt_either A B _ _ v dA0 (dB v) (by simp [hA, hB, h]) fun x => ?_
    simp only [val]; split
    · left; rfl
    · right; rfl
  · rw [slo, if_neg (not_lt.mpr h.le)]
    refine (dB v).congr_of_eventuallyEq ?_
    filter_upwards [lt_mem_nhds h] with x hx
    rw [val, if_neg (not_lt.mpr (le_of_lt hx))]

/-- Specification: the part of the forward current that counts for the transit time -/
noncomputable def Transit.part (q : Transit) (i : ℝ) : ℝ := if q.itf = 0 then 1 else i / (i + q.itf)
/-- Specification: charge of the forward transit -/
noncomputable def Par.qT (p : Par) (q : Transit) (vbe vbc : ℝ) : ℝ :=
  q.tf * (p.iF vbe * (1 + q.xtf * Real.exp (vbc * q.kv) * q.part (p.iF vbe) ^ 2) / p.charge vbe vbc)

/-- what the capacitance has too much: the factor `(i / (i + itf))²` is missing from the slope -/
noncomputable def Par.excess (p : Par) (q : Transit) (vbe vbc : ℝ) : ℝ :=
  q.tf * (p.be vbe).g * (q.xtf * Real.exp (vbc * q.kv)) * (3 - 2 * q.part (p.iF vbe)) * (1 - q.part (p.iF vbe) ^ 2) / p.charge vbe vbc

theorem transit_val (p : Par) (q : Transit) (vbe vbc : ℝ) (h : p.On vbe vbc) (ht : q.tf ≠ 0) (hv : 0 < vbe) :
    let a0 := q.xtf * Real.exp (vbc * q.kv)
    let r := q.part (p.iF vbe)
    let cbe' := p.iF vbe * (1 + a0 * r ^ 2) / p.charge vbe vbc
    let arg2 := if q.itf = 0 then a0 else a0 * (3 - 2 * r)
    p.transit q vbe vbc = (q.tf * cbe', q.tf * (((p.be vbe).g * (1 + arg2) - cbe' * (p.base vbe vbc).dve) / p.charge vbe vbc),
      q.tf * (p.iF vbe * (a0 * r ^ 2) * q.kv - cbe' * (p.base vbe vbc).dvc) / p.charge vbe vbc) := by
  intro a0 r cbe' arg2
  have e1 : (p.be vbe).c = p.iF vbe := (half_on p.vt p.nf p.ne p.ise p.leakE p.gmin vbe h.e).1
  have e2 : (p.base vbe vbc).qb = p.charge vbe vbc := (base_val p vbe vbc h).1
  have ea : (if q.kv ≠ 0 then q.xtf * Real.exp (vbc * q.kv) else q.xtf) = a0 := by
    by_cases hk : q.kv = 0
    · simp [hk, a0]
    · simp [hk, a0]
  unfold Par.transit
  simp only [if_pos (And.intro ht hv), e1, e2, ea]
  by_cases hx : q.xtf = 0
  · have ha : a0 = 0 := by simp [a0, hx]
    have h2 : arg2 = 0 := by simp only [arg2, ha]; split <;> ring
    simp only [hx, ne_eq, not_true_eq_false, if_false, cbe', h2, ha]
    refine Prod.ext ?_ (Prod.ext ?_ ?_) <;> simp only [] <;> ring
  · by_cases hi : q.itf = 0
    · have hr : r = 1 := by simp [r, Transit.part, hi]
      simp only [hx, hi, ne_eq, not_true_eq_false, not_false_eq_true, if_true, if_false, cbe', hr, arg2]
      refine Prod.ext ?_ (Prod.ext ?_ ?_) <;> simp only [] <;> ring
    · have hr : p.iF vbe / (p.iF vbe + q.itf) = r := by simp [r, Transit.part, hi]
      simp only [hx, hi, ne_eq, not_true_eq_false, not_false_eq_true, if_true, if_false, cbe', hr, arg2]
      refine Prod.ext ?_ (Prod.ext ?_ ?_) <;> simp only [] <;> ring

/-- C71: the charge of the forward transit and its slopes in any direction, in forward bias; the capacitance exceeds the slope by `excess` -/
theorem transit_slopes (p : Par) (q : Transit) (u w : ℝ → ℝ) (u' w' t : ℝ) (hu : HasDerivAt u u' t) (hw : HasDerivAt w w' t)
    (h : p.On (u t) (w t)) (ht : q.tf ≠ 0) (hv : 0 < u t) (hi : q.itf ≠ 0 → p.iF (u t) + q.itf ≠ 0) :
    let r := p.transit q (u t) (w t)
    r.1 = p.qT q (u t) (w t) ∧
    HasDerivAt (fun x => p.qT q (u x) (w x)) ((r.2.1 - p.excess q (u t) (w t)) * u' + r.2.2 * w') t := by
  intro r
  have hr := transit_val p q (u t) (w t) h ht hv
  simp only at hr
  obtain ⟨-, q2⟩ := charge_slopes p u w u' w' t hu hw h
  have q0 := charge_ne p (u t) (w t) h
  have hE : HasDerivAt (fun x => p.iF (u x)) ((p.be (u t)).g * u') t :=
    (half_on p.vt p.nf p.ne p.ise p.leakE p.gmin (u t) h.e).2.1.comp t hu
  refine ⟨by simp only [r, hr, Par.qT], ?_⟩
  have hx : HasDerivAt (fun x => q.xtf * Real.exp (w x * q.kv)) (q.xtf * (Real.exp (w t * q.kv) * (w' * q.kv))) t :=
    ((hw.mul_const q.kv).exp).const_mul q.xtf
  by_cases h0 : q.itf = 0
  · have hp : ∀ i, q.part i = 1 := fun i => by simp [Transit.part, h0]
    have hf : (fun x => p.qT q (u x) (w x)) = fun x => q.tf * (p.iF (u x) * (1 + q.xtf * Real.exp (w x * q.kv)) / p.charge (u x) (w x)) := by
      funext x; simp only [Par.qT, hp, one_pow, mul_one]
    rw [hf]
    have hn : HasDerivAt (fun x => p.iF (u x) * (1 + q.xtf * Real.exp (w x * q.kv))) _ t := hE.mul (hx.const_add 1)
    have hq : HasDerivAt (fun x => q.tf * (p.iF (u x) * (1 + q.xtf * Real.exp (w x * q.kv)) / p.charge (u x) (w x))) _ t :=
      (hn.div q2 q0).const_mul q.tf
    refine hq.congr_deriv ?_
    simp only [r, hr, Par.excess, h0, hp, if_true]
    field_simp
    ring
  · have hd : p.iF (u t) + q.itf ≠ 0 := hi h0
    have hp : ∀ i, q.part i = i / (i + q.itf) := fun i => by simp [Transit.part, h0]
    have hpart : HasDerivAt (fun x => p.iF (u x) / (p.iF (u x) + q.itf)) _ t := hE.div (hE.add_const q.itf) hd
    have hsq : HasDerivAt (fun x => (p.iF (u x) / (p.iF (u x) + q.itf)) ^ 2) _ t := hpart.pow 2
    have hf : (fun x => p.qT q (u x) (w x)) = fun x =>
        q.tf * (p.iF (u x) * (1 + q.xtf * Real.exp (w x * q.kv) * (p.iF (u x) / (p.iF (u x) + q.itf)) ^ 2) / p.charge (u x) (w x)) := by
      funext x; simp only [Par.qT, hp]
    rw [hf]
    have hn : HasDerivAt (fun x => p.iF (u x) * (1 + q.xtf * Real.exp (w x * q.kv) * (p.iF (u x) / (p.iF (u x) + q.itf)) ^ 2)) _ t :=
      hE.mul ((hx.mul hsq).const_add 1)
    have hq : HasDerivAt (fun x =>
        q.tf * (p.iF (u x) * (1 + q.xtf * Real.exp (w x * q.kv) * (p.iF (u x) / (p.iF (u x) + q.itf)) ^ 2) / p.charge (u x) (w x))) _ t :=
      (hn.div q2 q0).const_mul q.tf
    refine hq.congr_deriv ?_
    simp only [r, hr, Par.excess, h0, hp, if_false, show (2:ℕ) - 1 = 1 from rfl, pow_one]
    push_cast
    field_simp
    ring

/-- C71: without `itf` or `xtf` charge and slopes agree -/
theorem transit_exact (p : Par) (q : Transit) (u w : ℝ → ℝ) (u' w' t : ℝ) (hu : HasDerivAt u u' t) (hw : HasDerivAt w w' t)
    (h : p.On (u t) (w t)) (ht : q.tf ≠ 0) (hv : 0 < u t) (hi : q.itf = 0 ∨ (q.xtf = 0 ∧ p.iF (u t) + q.itf ≠ 0)) :
    let r := p.transit q (u t) (w t)
    r.1 = p.qT q (u t) (w t) ∧ HasDerivAt (fun x => p.qT q (u x) (w x)) (r.2.1 * u' + r.2.2 * w') t := by
  intro r
  obtain ⟨h1, h2⟩ := transit_slopes p q u w u' w' t hu hw h ht hv (fun h0 => by rcases hi with hi | hi; exacts [absurd hi h0, hi.2])
  refine ⟨h1, h2.congr_deriv ?_⟩
  have : p.excess q (u t) (w t) = 0 := by
    unfold Par.excess
    rcases hi with hi | hi
    · simp [Transit.part, hi]
    · simp [hi.1]
  rw [this, sub_zero]

/-- C71, violated: with both, the capacitance is more than the slope of the charge -/
theorem itf_wrong (p : Par) (q : Transit) (vbe vbc : ℝ) (h : p.On vbe vbc) (ht : 0 < q.tf) (hx : 0 < q.xtf) (hi : 0 < q.itf) (hv : 0 < vbe)
    (hvt : 0 < p.vt * p.nf) (his : 0 < p.ise) (hg : 0 ≤ p.gmin) (he : 0 < p.early vbe vbc) :
    ∃ s, HasDerivAt (fun x => p.qT q x vbc) s vbe ∧ s < (p.transit q vbe vbc).2.1 := by
  have hif : 0 < p.iF vbe := by
    unfold Par.iF expo
    have : 1 < Real.exp (vbe / (p.vt * p.nf)) := Real.one_lt_exp_iff.mpr (div_pos hv hvt)
    have := mul_pos his (sub_pos.mpr this)
    have := mul_nonneg hg hv.le
    linarith
  obtain ⟨-, h2⟩ := transit_slopes p q (fun x => x) (fun _ => vbc) 1 0 vbe (hasDerivAt_id' vbe) (hasDerivAt_const _ _) h ht.ne' hv
    (fun _ => by positivity)
  refine ⟨_, h2, ?_⟩
  have hq : 0 < p.charge vbe vbc := by
    unfold Par.charge
    have := Real.sqrt_nonneg (p.roll vbe vbc)
    exact div_pos (by linarith) he
  have hgb : 0 < (p.be vbe).g := by
    unfold Par.be half
    simp only [if_pos h.e]
    have : 0 < p.ise * Real.exp (vbe / (p.vt * p.nf)) / (p.vt * p.nf) := by positivity
    linarith
  have hr : q.part (p.iF vbe) = p.iF vbe / (p.iF vbe + q.itf) := by simp [Transit.part, hi.ne']
  have hr0 : 0 < q.part (p.iF vbe) := by rw [hr]; positivity
  have hr1 : q.part (p.iF vbe) < 1 := by rw [hr, div_lt_one (by positivity)]; linarith
  have : 0 < p.excess q vbe vbc := by
    unfold Par.excess
    have a1 : 0 < 3 - 2 * q.part (p.iF vbe) := by linarith
    have a2 : 0 < 1 - q.part (p.iF vbe) ^ 2 := by nlinarith
    positivity
  linarith

example : ∃ s, HasDerivAt (fun x => sample.qT ⟨1, 1, 1, 0⟩ x (1 / 2)) s (7 / 10) ∧ s < (sample.transit ⟨1, 1, 1, 0⟩ (7 / 10) (1 / 2)).2.1 :=
  itf_wrong sample ⟨1, 1, 1, 0⟩ _ _ (sample_on _ _ (by norm_num) (by norm_num) (by norm_num) (by norm_num)) one_pos one_pos one_pos
    (by norm_num) (by norm_num [sample]) (by norm_num [sample]) (le_of_eq (by rfl)) (by show 0 < 1 - 1 / 50 * (1 / 2 : ℝ) - 1 / 10 * (7 / 10); norm_num)

/-- C71: the charge of the base-emitter junction as a whole, without `itf` or `xtf` -/
theorem chargeBE_slopes (p : Par) (q : Transit) (cz pot mj fc : ℝ) (u w : ℝ → ℝ) (u' w' t : ℝ) (hu : HasDerivAt u u' t)
    (hw : HasDerivAt w w' t) (h : p.On (u t) (w t)) (ht : q.tf ≠ 0) (hv : 0 < u t)
    (hi : q.itf = 0 ∨ (q.xtf = 0 ∧ p.iF (u t) + q.itf ≠ 0)) (hpot : 0 < pot) (hfc : fc < 1) (hm : mj ≠ 1) :
    let r := p.chargeBE q cz pot mj fc (u t) (w t)
    r.1 = p.qT q (u t) (w t) + (depletion cz pot mj fc (u t)).1 ∧
    HasDerivAt (fun x => p.qT q (u x) (w x) + (depletion cz pot mj fc (u x)).1) (r.2.1 * u' + r.2.2 * w') t := by
  intro r
  obtain ⟨h1, h2⟩ := transit_exact p q u w u' w' t hu hw h ht hv hi
  have h3 : HasDerivAt (fun x => (depletion cz pot mj fc (u x)).1) ((depletion cz pot mj fc (u t)).2 * u') t :=
    (depletion_slope cz pot mj fc (u t) hpot hfc hm).comp t hu
  refine ⟨by simp only [r, Par.chargeBE, h1], (h2.add h3).congr_deriv ?_⟩
  simp only [r, Par.chargeBE]; ring

/-- C71: in reverse bias (above -5vt) the transit charge does not depend on the collector -/
theorem transit_neg (p : Par) (q : Transit) (u w : ℝ → ℝ) (u' t : ℝ) (hu : HasDerivAt u u' t) (h : -5 * (p.vt * p.nf) < u t) (hv : u t ≤ 0) :
    let r := p.transit q (u t) (w t)
    r.1 = q.tf * p.iF (u t) ∧ HasDerivAt (fun x => q.tf * p.iF (u x)) (r.2.1 * u') t ∧ r.2.2 = 0 := by
  intro r
  obtain ⟨e1, e2, -⟩ := half_on p.vt p.nf p.ne p.ise p.leakE p.gmin (u t) h
  have hr : r = (q.tf * (p.be (u t)).c, q.tf * (p.be (u t)).g, 0) := by
    simp only [r]; unfold Par.transit; rw [if_neg (fun hh => absurd hh.2 (not_lt.mpr hv))]
  rw [hr]
  refine ⟨?_, ?_, rfl⟩
  · show q.tf * (p.be (u t)).c = _; unfold Par.be; rw [e1]; rfl
  · have : HasDerivAt (fun x => p.iF (u x)) ((p.be (u t)).g * u') t := e2.comp t hu
    exact (this.const_mul q.tf).congr_deriv (by ring)

/-- C71: the charge of the base-collector junction -/
theorem chargeBC_slopes (p : Par) (tr cz pot mj fc v : ℝ) (h : -5 * (p.vt * p.nr) < v) (hpot : 0 < pot) (hfc : fc < 1) (hm : mj ≠ 1) :
    (p.chargeBC tr cz pot mj fc v).1 = tr * p.iR v + (depletion cz pot mj fc v).1 ∧
    HasDerivAt (fun v => tr * p.iR v + (depletion cz pot mj fc v).1) (p.chargeBC tr cz pot mj fc v).2 v := by
  obtain ⟨e1, e2, -⟩ := half_on p.vt p.nr p.nc p.isc p.leakC p.gmin v h
  refine ⟨?_, ?_⟩
  · show tr * (p.bc v).c + _ = _; unfold Par.bc; rw [e1]; rfl
  · have : HasDerivAt p.iR (p.bc v).g v := e2
    exact (this.const_mul tr).add (depletion_slope cz pot mj fc v hpot hfc hm)

/-! ## fpoly_cap -/
section fpoly
open Gnucap.Integ
variable {F : Type _} [Field F] [DecidableEq F]

/-- Specification: sum of products -/
def dot (vs cs : List F) : F := ((vs.zip cs).map fun vc => vc.1 * vc.2).sum

theorem foldl_sub (l : List (F × F)) : ∀ c : F, l.foldl (fun c vg => c - vg.1 * vg.2) c = c - (l.map fun vg => vg.1 * vg.2).sum := by
  induction l with
  | nil => intro c; simp
  | cons a l ih => intro c; simp only [List.foldl_cons, List.map_cons, List.sum_cons, ih]; ring

theorem dot_map (k : F) (f : F → F) (hf : ∀ c, f c = c * k) : ∀ vs cs : List F, dot vs (cs.map f) = dot vs cs * k := by
  intro vs
  induction vs with
  | nil => intro cs; simp [dot]
  | cons v vs ih =>
    intro cs
    cases cs with
    | nil => simp [dot]
    | cons c cs =>
      have := ih cs
      simp only [dot, List.map_cons, List.zip_cons_cons, List.sum_cons] at this ⊢
      rw [this, hf]; ring

/-- C71: at the voltages it was evaluated at, `fpoly_cap` loads the rate of change of the charge -/
theorem fpoly_flow (ph : Phase) (m : Method) (time : ℕ → F) (dt : F) (y i : ℕ → FPoly F) (q : F) (cs vs : List F) (g : F) :
    fpolyLoaded (fpolyDoTr ph m time dt y i q cs vs g) vs = (fpolyDoTr ph m time dt y i q cs vs g).1.f0 := by
  unfold fpolyLoaded fpolyDoTr
  simp only [foldl_sub]
  ring

/-- C71: at other voltages it loads the rate of change of the charge continued along its slopes, for every port -/
theorem fpoly_line (m : Method) (time : ℕ → F) (dt : F) (hdt : dt = time 0 - time 1) (y i : ℕ → FPoly F) (q : F) (cs vs vs' : List F) (g : F) :
    fpolyLoaded (fpolyDoTr .dynamic m time dt y i q cs vs g) vs' =
      (fpolyDoTr .dynamic m time dt y i (q + (dot vs' cs - dot vs cs)) cs vs' g).1.f0 := by
  have e : fpolyLoaded (fpolyDoTr .dynamic m time dt y i q cs vs g) vs' =
      (fpolyDoTr .dynamic m time dt y i q cs vs g).1.f0 + (dot vs' (cs.map fun c => trCToG .dynamic time dt m c g) -
        dot vs (cs.map fun c => trCToG .dynamic time dt m c g)) := by
    unfold fpolyLoaded fpolyDoTr dot
    simp only [foldl_sub]
    ring
  have hk : ∀ c, trCToG .dynamic time dt m c g = c * trCToG .dynamic time dt m 1 g := by
    intro c
    unfold trCToG
    cases usedMethod time m <;> simp only [] <;> ring
  rw [e, dot_map _ _ hk, dot_map _ _ hk, ← sub_mul]
  generalize dot vs' cs - dot vs cs = d
  subst hdt
  simp only [fpolyDoTr, differentiate, trCToG, if_true, one_ne_zero, if_false, (by decide : (2 : ℕ) ≠ 0)]
  cases usedMethod time m <;> simp only [] <;> ring

/-- C71: nothing flows in a static analysis; in AC each port counts with its slope -/
theorem fpoly_static (m : Method) (time : ℕ → F) (dt : F) (y i : ℕ → FPoly F) (q : F) (cs vs vs' : List F) (g : F) :
    fpolyLoaded (fpolyDoTr .static m time dt y i q cs vs g) vs' = 0 ∧ fpolyAc cs vs' = dot vs' cs := by
  refine ⟨?_, rfl⟩
  have h0 : ∀ vs : List F, dot vs (cs.map fun _ => (0 : F)) = 0 := fun vs => by
    rw [dot_map (0 : F) _ (fun c => by ring)]; ring
  have e : fpolyLoaded (fpolyDoTr .static m time dt y i q cs vs g) vs' = 0 + (dot vs' (cs.map fun _ => (0 : F)) - dot vs (cs.map fun _ => (0 : F))) := by
    unfold fpolyLoaded fpolyDoTr dot differentiate trCToG
    simp only [foldl_sub]
    ring
  rw [e, h0, h0]; ring

example : fpolyLoaded (fpolyDoTr .dynamic .trap (fun k => (3 - k : ℚ)) 1 (fun _ => ⟨0, 1, 0⟩) (fun _ => ⟨0, 0, 0⟩) 4 [2, 3] [1, 5] 0) [2, 7] = 22 := by
  decide +kernel

end fpoly

end Gnucap.Bjt
