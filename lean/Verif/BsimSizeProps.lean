import Verif.BsimSizeModel
import Mathlib.Topology.Algebra.Order.Field
import Mathlib.Analysis.SpecificLimits.Basic

/-!
# Parameters that depend on the size, levels 4 and 5 (properties)
-/

namespace Gnucap.BsimSize.Props
open Filter Topology

/-! ## one parameter -/

/-- `x` is what the card says, or the default -/
def Says (own : Option ℝ) (d x : ℝ) : Prop := own = some x ∨ own = none ∧ x = d

/-- what a parameter of these models is, from its documentation: times the area of the channel in square microns it is what the nominal
value, the part for a shorter channel, the part for a narrower one and the part for both give; parts that are not there are 0 -/
def IsPar (s : Sdp) (L W d x : ℝ) : Prop :=
  ∀ n l w p, Says s.nom d n → Says s.l 0 l → Says s.w 0 w → Says s.p 0 p → x * (L * W) = n * L * W + l * W + w * L + p

theorem sdp_law (s : Sdp) {L W : ℝ} (d : ℝ) (hL : L ≠ 0) (hW : W ≠ 0) : IsPar s L W d (s.at L W d) := by
  have e : ∀ (o : Option ℝ) (d x : ℝ), Says o d x → o.getD d = x := by
    rintro o d x (rfl | ⟨rfl, rfl⟩) <;> rfl
  intro n l w p h1 h2 h3 h4
  simp only [Sdp.at, e _ _ _ h1, e _ _ _ h2, e _ _ _ h3, e _ _ _ h4]
  field_simp

/-- a device that grows both ways comes to the nominal value -/
theorem sdp_big (s : Sdp) (d : ℝ) {ι : Type} {f : Filter ι} {L W : ι → ℝ} (hL : Tendsto L f atTop) (hW : Tendsto W f atTop) :
    Tendsto (fun i => s.at (L i) (W i) d) f (𝓝 (s.nom.getD d)) := by
  have h1 : Tendsto (fun i => s.l.getD 0 / L i) f (𝓝 0) := hL.const_div_atTop _
  have h2 : Tendsto (fun i => s.w.getD 0 / W i) f (𝓝 0) := hW.const_div_atTop _
  have h3 : Tendsto (fun i => s.p.getD 0 / (W i * L i)) f (𝓝 0) := (hW.atTop_mul_atTop₀ hL).const_div_atTop _
  have := ((tendsto_const_nhds (x := s.nom.getD d)).add h1 |>.add h2).add h3
  simpa [Sdp.at] using this

example : Sdp.at ⟨some 1, some 2, none, some 4⟩ 2 4 0 = 2.5 := by norm_num [Sdp.at]

/-! ## the size -/

/-- Gate oxide, gate capacitance and gain in SI units: `tox` in microns on the card, the mobility in square centimetres -/
theorem eff_law (c : Card) {l w : ℝ} {e : Eff} (h : c.eff l w = some e) :
    e.l = l - c.dl.getD 0 / 10 ^ 6 ∧ e.w = w - c.dw.getD 0 / 10 ^ 6 ∧ e.L = e.l * 10 ^ 6 ∧ e.W = e.w * 10 ^ 6
    ∧ e.l ≠ 0 ∧ e.w ≠ 0
    ∧ e.cgate * (c.tox.getD 0 / 10 ^ 6) = 3.453e-11 * (e.l * e.w)
    ∧ ∀ mu, mu * e.coxWoverL * (c.tox.getD 0 / 10 ^ 6) * e.l = mu / 10 ^ 4 * 3.453e-11 * e.w := by
  simp only [Card.eff] at h
  split_ifs at h with hz
  push Not at hz
  obtain ⟨z1, z2, z3⟩ := hz
  simp only [Option.some.injEq] at h
  subst h
  have z0 : c.tox.getD 0 ≠ 0 := left_ne_zero_of_mul z1
  refine ⟨by norm_num [div_eq_mul_inv], by norm_num [div_eq_mul_inv], by norm_num [div_eq_mul_inv], by norm_num [div_eq_mul_inv], z2, z3, ?_, ?_⟩
  · simp only
    set le := l - c.dl.getD 0 * 1e-6
    set we := w - c.dw.getD 0 * 1e-6
    field_simp
    norm_num
  · intro mu
    simp only
    set le := l - c.dl.getD 0 * 1e-6
    set we := w - c.dw.getD 0 * 1e-6
    field_simp
    norm_num
    ring

/-- the gain `b` of a mobility `mu` in square centimetres, in SI units, with an oxide of `t` microns -/
def Gain (t : ℝ) (e : Eff) (mu b : ℝ) : Prop := b * (t / 10 ^ 6) * e.l = mu / 10 ^ 4 * 3.453e-11 * e.w

/-- the parameter `n` of the device is `x` -/
def Par (c : Card) (e : Eff) (n : Name) (x : ℝ) : Prop := IsPar (c.sdp n) (e.l * 10 ^ 6) (e.w * 10 ^ 6) 0 x

lemma val_par (c : Card) {l w : ℝ} {e : Eff} (h : c.eff l w = some e) (n : Name) : Par c e n (c.val e n) := by
  obtain ⟨_, _, hL, hW, h1, h2, _⟩ := eff_law c h
  rw [Par, ← hL, ← hW]
  apply sdp_law
  · rw [hL]; exact mul_ne_zero h1 (by norm_num)
  · rw [hW]; exact mul_ne_zero h2 (by norm_num)

lemma val_gain (c : Card) {l w : ℝ} {e : Eff} (h : c.eff l w = some e) (n : Name) :
    ∃ x, Par c e n x ∧ Gain (c.tox.getD 0) e x (c.val e n * e.coxWoverL) :=
  ⟨_, val_par c h n, (eff_law c h).2.2.2.2.2.2.2 _⟩

/-- level 4: the gains are those of the mobilities, the threshold is the textbook's -/
theorem four_law (c : Card) {l w : ℝ} {e : Eff} (h : c.eff l w = some e) {f : Four} (hf : c.four e = some f) :
    (∃ x, Par c e .MUZ x ∧ Gain (c.tox.getD 0) e x f.betaZero) ∧ (∃ x, Par c e .X2MZ x ∧ Gain (c.tox.getD 0) e x f.betaZeroB)
    ∧ (∃ x, Par c e .MUS x ∧ Gain (c.tox.getD 0) e x f.betaVdd) ∧ (∃ x, Par c e .X2MS x ∧ Gain (c.tox.getD 0) e x f.betaVddB)
    ∧ (∃ x, Par c e .X3MS x ∧ Gain (c.tox.getD 0) e x f.betaVddD)
    ∧ ∃ vfb phi k1 k2 r, Par c e .VFB vfb ∧ Par c e .PHI phi ∧ Par c e .K1 k1 ∧ Par c e .K2 k2 ∧ 0 ≤ r ∧ r ^ 2 = phi
        ∧ f.vt0 = vfb + phi + k1 * r - k2 * phi := by
  have g := val_gain c h
  have v := val_par c h
  simp only [Card.four] at hf
  split_ifs at hf with hp
  simp only [Option.some.injEq] at hf
  subst hf
  refine ⟨g _, g _, g _, g _, g _, _, _, _, _, Real.sqrt (c.val e .PHI), v _, v _, v _, v _, Real.sqrt_nonneg _, ?_, rfl⟩
  exact Real.sq_sqrt (not_lt.1 hp)

/-- level 5: the gains are those of the mobilities, except that the slope of the gain at full drain voltage with the bulk is, where it
would take that gain at `VBB` below the one at no drain voltage, the slope at which they meet -/
theorem five_law (c : Card) {l w : ℝ} {e : Eff} (h : c.eff l w = some e) {f : Five} (hf : c.five e = some f) :
    (∃ x, Par c e .MU0 x ∧ Gain (c.tox.getD 0) e x f.beta0) ∧ (∃ x, Par c e .MU0B x ∧ Gain (c.tox.getD 0) e x f.beta0B)
    ∧ (∃ x, Par c e .MUS0 x ∧ Gain (c.tox.getD 0) e x f.betas0)
    ∧ (Par c e .MU20 f.beta20 ∧ Par c e .MU2B f.beta2B ∧ Par c e .MU2G f.beta2G)
    ∧ (∃ x, Par c e .MU30 x ∧ Gain (c.tox.getD 0) e x f.beta30) ∧ (∃ x, Par c e .MU3B x ∧ Gain (c.tox.getD 0) e x f.beta3B)
    ∧ (∃ x, Par c e .MU3G x ∧ Gain (c.tox.getD 0) e x f.beta3G) ∧ (∃ x, Par c e .MU40 x ∧ Gain (c.tox.getD 0) e x f.beta40)
    ∧ (∃ x, Par c e .MU4B x ∧ Gain (c.tox.getD 0) e x f.beta4B) ∧ (∃ x, Par c e .MU4G x ∧ Gain (c.tox.getD 0) e x f.beta4G)
    ∧ (∃ x b, Par c e .MUSB x ∧ Gain (c.tox.getD 0) e x b ∧
        ((f.beta0 + f.beta0B * c.vbb.getD 0 ≤ f.betas0 + b * c.vbb.getD 0 ∧ f.betasB = b)
          ∨ (f.betas0 + b * c.vbb.getD 0 < f.beta0 + f.beta0B * c.vbb.getD 0
              ∧ f.betas0 + f.betasB * c.vbb.getD 0 = f.beta0 + f.beta0B * c.vbb.getD 0)))
    ∧ f.arg = f.betasB - f.beta0B - c.vdd.getD 0 * f.beta3B + c.vdd.getD 0 ^ 2 * f.beta4B := by
  have g := val_gain c h
  have v := val_par c h
  simp only [Card.five, Option.map_eq_some_iff] at hf
  obtain ⟨b, hb, rfl⟩ := hf
  refine ⟨g _, g _, g _, ⟨v _, v _, v _⟩, g _, g _, g _, g _, g _, g _, ?_, by ring⟩
  obtain ⟨x, p1, p2⟩ := g .MUSB
  refine ⟨x, _, p1, p2, ?_⟩
  simp only [limitB] at hb
  split_ifs at hb with h1 h2
  · simp only [Option.some.injEq] at hb
    subst hb
    refine .inr ⟨by linarith, ?_⟩
    field_simp
    ring
  · simp only [Option.some.injEq] at hb
    subst hb
    exact .inl ⟨by linarith, rfl⟩

/-- the sizes of a device exist exactly if there is an oxide and something is left of the channel -/
theorem eff_exists (c : Card) (l w : ℝ) :
    (∃ e, c.eff l w = some e) ↔ (∃ t, c.tox = some t ∧ t ≠ 0) ∧ l ≠ c.dl.getD 0 * 1e-6 ∧ w ≠ c.dw.getD 0 * 1e-6 := by
  have ht : (c.tox.getD 0 * 1e-6 = 0) ↔ ¬ ∃ t, c.tox = some t ∧ t ≠ 0 := by
    cases h : c.tox with
    | none => simp
    | some t => norm_num
  simp only [Card.eff]
  split_ifs with hz
  · simp only [exists_false, false_iff]
    rintro ⟨a, b, d⟩
    rcases hz with hz | hz | hz
    · exact (ht.1 hz) a
    · exact b (sub_eq_zero.1 hz)
    · exact d (sub_eq_zero.1 hz)
  · push Not at hz
    simp only [Option.some.injEq, exists_eq', true_iff]
    refine ⟨?_, sub_ne_zero.1 hz.2.1, sub_ne_zero.1 hz.2.2⟩
    by_contra hc
    exact hz.1 (ht.2 hc)

/-- no width dependence of its own -/
def NoWidth (c : Card) : Prop := c.dw.getD 0 = 0 ∧ ∀ n, (c.sdp n).w.getD 0 = 0 ∧ (c.sdp n).p.getD 0 = 0

lemma val_noWidth {c : Card} (h : NoWidth c) {e e' : Eff} (hl : e.L = e'.L) (n : Name) : c.val e n = c.val e' n := by
  simp [Card.val, Sdp.at, (h.2 n).1, (h.2 n).2, hl]

lemma limit_scale {n : ℝ} (hn : 0 < n) (vbb a b c d : ℝ) :
    limitB vbb (n * a) (n * b) (n * c) (n * d) = (limitB vbb a b c d).map (n * ·) := by
  have hc : (-(n * d) * vbb > n * c - n * a - n * b * vbb) ↔ (-d * vbb > c - a - b * vbb) := by
    rw [show -(n * d) * vbb = n * (-d * vbb) by ring, show n * c - n * a - n * b * vbb = n * (c - a - b * vbb) by ring]
    exact mul_lt_mul_iff_right₀ hn
  simp only [limitB, hc]
  split_ifs
  · rfl
  · simp only [Option.map_some, Option.some.injEq]; ring
  · rfl

/-- A card without width dependence: a device `n` times as wide has `n` times the gate capacitance, overlaps and gain, the same threshold,
and the same share of everything else: it is `n` devices side by side.  In both levels. -/
theorem wide (c : Card) (hc : NoWidth c) {l w n : ℝ} (hn : 0 < n) {e : Eff} (h : c.eff l w = some e) :
    ∃ e', c.eff l (n * w) = some e' ∧ e'.l = e.l ∧ e'.w = n * e.w ∧ e'.cgate = n * e.cgate
      ∧ e'.cgso = n * e.cgso ∧ e'.cgdo = n * e.cgdo ∧ e'.cgbo = e.cgbo
      ∧ (∀ m, c.val e' m = c.val e m)
      ∧ (∀ f, c.four e = some f → c.four e' = some ⟨n * f.betaZero, n * f.betaZeroB, n * f.betaVdd, n * f.betaVddB, n * f.betaVddD, f.vt0⟩)
      ∧ (∀ f, c.five e = some f → c.five e' = some
          ⟨n * f.beta0, n * f.beta0B, n * f.betas0, n * f.betasB, f.beta20, f.beta2B, f.beta2G,
            n * f.beta30, n * f.beta3B, n * f.beta3G, n * f.beta40, n * f.beta4B, n * f.beta4G, n * f.arg⟩) := by
  simp only [Card.eff] at h
  split_ifs at h with hz
  push Not at hz
  obtain ⟨z1, z2, z3⟩ := hz
  simp only [Option.some.injEq] at h
  have z4 : n * w - c.dw.getD 0 * 1e-6 ≠ 0 := by
    rw [hc.1] at z3 ⊢
    simp only [zero_mul, sub_zero] at z3 ⊢
    exact mul_ne_zero hn.ne' z3
  have hz' : ¬ (c.tox.getD 0 * 1e-6 = 0 ∨ l - c.dl.getD 0 * 1e-6 = 0 ∨ n * w - c.dw.getD 0 * 1e-6 = 0) := by
    push Not; exact ⟨z1, z2, z4⟩
  have he : ∃ e', c.eff l (n * w) = some e' ∧ e'.l = e.l ∧ e'.L = e.L ∧ e'.w = n * e.w ∧ e'.cgate = n * e.cgate
      ∧ e'.cgso = n * e.cgso ∧ e'.cgdo = n * e.cgdo ∧ e'.cgbo = e.cgbo ∧ e'.coxWoverL = n * e.coxWoverL := by
    refine ⟨_, by simp only [Card.eff]; rw [if_neg hz'], ?_⟩
    subst h
    simp only [hc.1, zero_mul, sub_zero, true_and]
    refine ⟨?_, ?_, ?_, ?_⟩ <;> ring
  obtain ⟨e', q1, q2, q3, q4, q5, q6, q7, q8, q9⟩ := he
  have hv : ∀ m, c.val e' m = c.val e m := fun m => val_noWidth hc q3 m
  refine ⟨e', q1, q2, q4, q5, q6, q7, q8, hv, ?_, ?_⟩
  · intro f hf
    simp only [Card.four] at hf ⊢
    simp only [hv, q9]
    split_ifs at hf ⊢ with hp
    simp only [Option.some.injEq] at hf
    subst hf
    simp only [Option.some.injEq, Four.mk.injEq, and_true]
    refine ⟨?_, ?_, ?_, ?_, ?_⟩ <;> ring
  · intro f hf
    simp only [Card.five] at hf ⊢
    simp only [hv, q9]
    have r : ∀ x, x * (n * e.coxWoverL) = n * (x * e.coxWoverL) := by intro x; ring
    simp only [r]
    rw [limit_scale hn]
    cases hb : limitB (c.vbb.getD 0) (c.val e .MU0 * e.coxWoverL) (c.val e .MU0B * e.coxWoverL) (c.val e .MUS0 * e.coxWoverL)
      (c.val e .MUSB * e.coxWoverL) with
    | none => rw [hb] at hf; simp at hf
    | some b =>
      rw [hb] at hf
      simp only [Option.map_some, Option.some.injEq] at hf ⊢
      subst hf
      simp only [Five.mk.injEq, true_and]
      ring

/-- a card for the above: a short channel effect, no narrow one -/
noncomputable def demo : Card :=
  { tox := some 0.02, dl := some 0.5, vdd := some 5, vbb := some (-5)
    sdp := fun
      | .MU0 => ⟨some 400, some 30, none, none⟩
      | .MUS0 => ⟨some 500, none, none, none⟩
      | .PHI => ⟨some 0.7, none, none, none⟩
      | _ => {} }

example : NoWidth demo ∧ ∃ e, demo.eff 2e-6 1e-5 = some e := by
  constructor
  · refine ⟨by norm_num [demo], fun n => ?_⟩
    cases n <;> simp [demo]
  · rw [eff_exists]
    refine ⟨⟨0.02, rfl, by norm_num⟩, ?_, ?_⟩ <;> norm_num [demo]

/-! ## the gain at full drain voltage is not below that at none -/

/-- what `code_post` is there for: at `VBB` -/
theorem gain_at_bulk (c : Card) {e : Eff} {f : Five} (h : c.five e = some f) :
    f.beta0 + f.beta0B * c.vbb.getD 0 ≤ f.betas0 + f.betasB * c.vbb.getD 0 := by
  simp only [Card.five, Option.map_eq_some_iff] at h
  obtain ⟨b, hb, rfl⟩ := h
  simp only [limitB] at hb
  simp only
  split_ifs at hb with h1 h2
  · simp only [Option.some.injEq] at hb
    subst hb
    field_simp
    linarith
  · simp only [Option.some.injEq] at hb
    subst hb
    linarith

/-- With a gain at full drain voltage that is not smaller to begin with, at every bulk voltage from `VBB` to 0 -/
theorem gain_order (c : Card) {e : Eff} {f : Five} (h : c.five e = some f) (h0 : f.beta0 ≤ f.betas0) {v : ℝ}
    (hv : c.vbb.getD 0 ≤ v) (hv0 : v ≤ 0) : f.beta0 + f.beta0B * v ≤ f.betas0 + f.betasB * v := by
  have hb := gain_at_bulk c h
  set b := c.vbb.getD 0
  rcases hv0.lt_or_eq with hl | rfl
  · have hbn : b < 0 := by linarith
    -- (betas0 - beta0) (1 - v/b) + (...) v/b
    have key : 0 ≤ (f.betas0 - f.beta0) * (v - b) + (f.betas0 + f.betasB * b - f.beta0 - f.beta0B * b) * (-v) :=
      add_nonneg (mul_nonneg (by linarith) (by linarith)) (mul_nonneg (by linarith) (by linarith))
    have e1 : (f.betas0 - f.beta0) * (v - b) + (f.betas0 + f.betasB * b - f.beta0 - f.beta0B * b) * (-v)
        = (-b) * (f.betas0 + f.betasB * v - (f.beta0 + f.beta0B * v)) := by ring
    rw [e1] at key
    have := nonneg_of_mul_nonneg_right key (by linarith)
    linarith
  · simpa using h0

/-- a card whose slope is limited -/
noncomputable def steep : Card :=
  { tox := some 1, vbb := some (-1)
    sdp := fun
      | .MU0 => ⟨some 1, none, none, none⟩
      | .MUS0 => ⟨some 2, none, none, none⟩
      | .MUSB => ⟨some 5, none, none, none⟩
      | _ => {} }

/-- units in which the gain of a mobility of 1 is 1 -/
noncomputable def unit : Eff := ⟨1, 1, 1, 1, 1, 1, 0, 0, 0⟩

example : ∃ f, steep.five unit = some f ∧ f.beta0 ≤ f.betas0 ∧ f.betasB = 1 := by
  have h1 : steep.val unit .MU0 = 1 := by norm_num [steep, Card.val, Sdp.at, unit]
  have h2 : steep.val unit .MUS0 = 2 := by norm_num [steep, Card.val, Sdp.at, unit]
  have h3 : steep.val unit .MUSB = 5 := by norm_num [steep, Card.val, Sdp.at, unit]
  have h4 : steep.val unit .MU0B = 0 := by norm_num [steep, Card.val, Sdp.at, unit]
  have h5 : limitB (steep.vbb.getD 0) 1 0 2 5 = some 1 := by norm_num [limitB, steep]
  have hk : unit.coxWoverL = 1 := rfl
  simp only [Card.five, h1, h2, h3, h4, hk, mul_one, h5, Option.map_some]
  exact ⟨_, rfl, by norm_num, rfl⟩

/-! ## where it fails -/

/-- `quiet_min="1.01*beta0"` does nothing: a card with a smaller mobility at full drain voltage keeps it, and at a bulk voltage of 0 the
gain at full drain voltage is below that at none -/
theorem gain_disordered (c : Card) {e : Eff} {f : Five} (h : c.five e = some f) (hk : 0 < e.coxWoverL)
    (hm : c.val e .MUS0 < c.val e .MU0) : f.betas0 + f.betasB * 0 < f.beta0 + f.beta0B * 0 := by
  simp only [Card.five, Option.map_eq_some_iff] at h
  obtain ⟨b, _, rfl⟩ := h
  simp only [mul_zero, add_zero]
  exact mul_lt_mul_of_pos_right hm hk

/-- and without `VBB` the limit divides by it -/
theorem no_bulk (c : Card) {e : Eff} (hv : c.vbb = none) (hk : 0 < e.coxWoverL) (hm : c.val e .MUS0 < c.val e .MU0) :
    c.five e = none := by
  have : c.val e .MUS0 * e.coxWoverL < c.val e .MU0 * e.coxWoverL := mul_lt_mul_of_pos_right hm hk
  simp [Card.five, limitB, hv, this]

/-- a card with a mobility and nothing else about saturation meets this -/
noncomputable def plain : Card := { tox := some 1, sdp := fun | .MU0 => ⟨some 1, none, none, none⟩ | _ => {} }
example : plain.vbb = none ∧ plain.val unit .MUS0 < plain.val unit .MU0 ∧ 0 < unit.coxWoverL := by
  refine ⟨rfl, ?_, ?_⟩ <;> norm_num [plain, Card.val, Sdp.at, unit]

/-- `quiet_min=1e-20` does nothing: a card without `TOX` has no finite capacitance in any device -/
theorem no_oxide (c : Card) (h : c.tox = none) (l w : ℝ) : c.eff l w = none := by
  simp [Card.eff, h]

/-- a channel narrower than what is taken from it is accepted: its gate capacitance and its gain are negative -/
theorem narrow (c : Card) {l w t : ℝ} (ht : c.tox = some t) (hp : 0 < t) (hl : c.dl.getD 0 * 1e-6 < l) (hw : w < c.dw.getD 0 * 1e-6) :
    ∃ e, c.eff l w = some e ∧ e.cgate < 0 ∧ e.coxWoverL < 0 := by
  have z2 : 0 < l - c.dl.getD 0 * 1e-6 := by linarith
  have z3 : w - c.dw.getD 0 * 1e-6 < 0 := by linarith
  have hz : ¬ (c.tox.getD 0 * 1e-6 = 0 ∨ l - c.dl.getD 0 * 1e-6 = 0 ∨ w - c.dw.getD 0 * 1e-6 = 0) := by
    push Not
    refine ⟨?_, z2.ne', z3.ne⟩
    simp only [ht, Option.getD_some]
    positivity
  refine ⟨_, by simp only [Card.eff]; rw [if_neg hz], ?_, ?_⟩
  · simp only [ht, Option.getD_some]
    have : 0 < 3.453e-11 / (t * 1e-6) := by positivity
    have := mul_neg_of_pos_of_neg this z3
    exact mul_neg_of_neg_of_pos this z2
  · simp only [ht, Option.getD_some]
    have : 0 < 1e-4 * (3.453e-11 / (t * 1e-6)) := by positivity
    exact div_neg_of_neg_of_pos (mul_neg_of_pos_of_neg this z3) z2

/-- the overlap capacitances are taken before `DW` and `DL`: they are not those of the channel -/
theorem overlap_drawn (c : Card) {l w : ℝ} {e : Eff} (h : c.eff l w = some e) :
    (e.cgso = c.cgso * w ∧ e.cgdo = c.cgdo * w ∧ e.cgbo = c.cgbo * l)
    ∧ (e.cgso = c.cgso * e.w ↔ c.cgso = 0 ∨ c.dw.getD 0 = 0) ∧ (e.cgdo = c.cgdo * e.w ↔ c.cgdo = 0 ∨ c.dw.getD 0 = 0)
    ∧ (e.cgbo = c.cgbo * e.l ↔ c.cgbo = 0 ∨ c.dl.getD 0 = 0) := by
  simp only [Card.eff] at h
  split_ifs at h with hz
  simp only [Option.some.injEq] at h
  subst h
  simp only
  have : ∀ a x d : ℝ, a * x = a * (x - d * 1e-6) ↔ a = 0 ∨ d = 0 := by
    intro a x d
    constructor
    · intro h
      have : a * d = 0 := by
        have : a * d * 1e-6 = 0 := by linarith
        exact (mul_eq_zero.1 this).resolve_right (by norm_num)
      exact mul_eq_zero.1 this
    · rintro (rfl | rfl) <;> simp
  exact ⟨by simp, this _ _ _, this _ _ _, this _ _ _⟩

/-- a threshold of level 4 with a surface potential below 0 has no value: `positive` and `quiet_min=.1` do nothing -/
theorem no_potential (c : Card) {e : Eff} (h : c.val e .PHI < 0) : c.four e = none := by
  simp [Card.four, h]

/-- a short channel gets there from a good nominal value -/
example : (({ sdp := fun _ => ⟨some 0.7, some (-2), none, none⟩ } : Card).val unit .PHI) < 0 := by
  norm_num [Card.val, Sdp.at, unit]

end Gnucap.BsimSize.Props
