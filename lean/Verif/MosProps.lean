import Verif.MosModel
import Verif.LimitProps
import Mathlib.Analysis.SpecialFunctions.Sqrt
import Mathlib.Analysis.SpecialFunctions.Log.Deriv
import Mathlib.Analysis.Calculus.Deriv.Pow
import Mathlib.Analysis.Calculus.Deriv.MeanValue
import Mathlib.Tactic.Linarith
import Mathlib.Tactic.FieldSimp
import Mathlib.Tactic.LinearCombination

/-!
# Mosfet, level 1 (C70)
-/
set_option linter.unusedSimpArgs false
set_option linter.unnecessarySeqFocus false
namespace Gnucap.Mos

/-! ## calculus -/

/-- a function that is one or the other of two which agree at a point to first order -/
theorem hasDerivAt_either (A B F : ℝ → ℝ) (d t : ℝ) (hA : HasDerivAt A d t) (hB : HasDerivAt B d t) (he : A t = B t)
    (hF : ∀ x, F x = A x ∨ F x = B x) : HasDerivAt F d t := by
  have h0 : F t = A t := by rcases hF t with h | h; exacts [h, h.trans he.symm]
  have hl : HasDerivWithinAt F d {x | F x = A x} t := hA.hasDerivWithinAt.congr (fun x hx => hx) h0
  have hr : HasDerivWithinAt F d {x | F x = B x} t := hB.hasDerivWithinAt.congr (fun x hx => hx) (h0.trans he)
  have := hl.union hr
  have hu : {x | F x = A x} ∪ {x | F x = B x} = Set.univ := by
    ext x; simpa using hF x
  rwa [hu, hasDerivWithinAt_univ] at this

/-- Specification: positive part -/
noncomputable def pos (x : ℝ) : ℝ := max x 0

theorem pos_sq_deriv (x : ℝ) : HasDerivAt (fun y => pos y ^ 2) (2 * pos x) x := by
  rcases lt_trichotomy x 0 with h | h | h
  · have : (fun y => pos y ^ 2) =ᶠ[nhds x] fun _ => 0 := by
      filter_upwards [gt_mem_nhds h] with y hy
      simp [pos, max_eq_right hy.le]
    refine ((hasDerivAt_const x (0 : ℝ)).congr_of_eventuallyEq this).congr_deriv ?_
    simp [pos, max_eq_right h.le]
  · subst h
    have hs : HasDerivAt (fun y : ℝ => y ^ 2) (2 * pos 0) 0 := by simpa [pos] using hasDerivAt_pow 2 (0 : ℝ)
    have hz : HasDerivAt (fun _ : ℝ => (0 : ℝ)) (2 * pos 0) 0 := by simpa [pos] using hasDerivAt_const (0 : ℝ) (0 : ℝ)
    refine hasDerivAt_either _ _ _ _ _ hs hz (by simp) fun y => ?_
    rcases le_total y 0 with hy | hy
    · right; simp [pos, max_eq_right hy]
    · left; simp [pos, max_eq_left hy]
  · have : (fun y => pos y ^ 2) =ᶠ[nhds x] fun y => y ^ 2 := by
      filter_upwards [lt_mem_nhds h] with y hy
      simp [pos, max_eq_left hy.le]
    refine ((hasDerivAt_pow 2 x).congr_of_eventuallyEq this).congr_deriv ?_
    simp [pos, max_eq_left h.le]

theorem pos_sq_path (u : ℝ → ℝ) (u' t : ℝ) (h : HasDerivAt u u' t) : HasDerivAt (fun x => pos (u x) ^ 2) (2 * pos (u t) * u') t :=
  (pos_sq_deriv (u t)).comp t h

/-! ## level 1 -/

/-- Specification: threshold -/
noncomputable def P1.vth (p : P1) (vbs : ℝ) : ℝ :=
  p.vto + p.gamma * (Real.sqrt (p.tphi - vbs) - Real.sqrt p.phi) + 1 / 2 * (p.egap - p.tegap) + 1 / 2 * (p.tphi - p.phi)

/-- Specification: the square law, one square for each end of the channel -/
noncomputable def P1.I (p : P1) (vgs vds vbs : ℝ) : ℝ :=
  p.beta / 2 * (1 + p.lambda * vds) * (pos (vgs - p.vth vbs) ^ 2 - pos (vgs - p.vth vbs - vds) ^ 2)

/-- what the code has, in terms of both ends of the channel -/
theorem eval_eq (p : P1) (vgs vds vbs : ℝ) (hd : 0 ≤ vds) (hb : vbs ≤ 0) :
    let a := pos (vgs - p.vth vbs)
    let b := pos (vgs - p.vth vbs - vds)
    (p.eval vgs vds vbs).von = p.vth vbs ∧ (p.eval vgs vds vbs).ids = p.I vgs vds vbs ∧
    (p.eval vgs vds vbs).gm = p.beta * (1 + p.lambda * vds) * (a - b) ∧
    (p.eval vgs vds vbs).gds = p.beta * p.lambda / 2 * (a ^ 2 - b ^ 2) + p.beta * (1 + p.lambda * vds) * b ∧
    (p.eval vgs vds vbs).gmb = p.beta * (1 + p.lambda * vds) * (a - b) * (p.gamma / (2 * Real.sqrt (p.tphi - vbs))) := by
  have hs : (-(1 / 2) : ℝ) / Real.sqrt (p.tphi - vbs) = -(1 / (2 * Real.sqrt (p.tphi - vbs))) := by ring
  simp only [P1.eval, P1.sarg, if_pos hb, P1.I]
  rw [show p.vto + p.gamma * (Real.sqrt (p.tphi - vbs) - Real.sqrt p.phi) + 1 / 2 * (p.egap - p.tegap) + 1 / 2 * (p.tphi - p.phi) =
    p.vth vbs from rfl, hs]
  by_cases h1 : vgs - p.vth vbs < 0
  · have ha : pos (vgs - p.vth vbs) = 0 := max_eq_right h1.le
    have hb' : pos (vgs - p.vth vbs - vds) = 0 := max_eq_right (by linarith)
    rw [if_pos h1, ha, hb']
    simp
  · have ha : pos (vgs - p.vth vbs) = vgs - p.vth vbs := max_eq_left (not_lt.1 h1)
    rw [if_neg h1, if_neg h1, ha]
    by_cases h2 : vgs - p.vth vbs < vds
    · have hb' : pos (vgs - p.vth vbs - vds) = 0 := max_eq_right (by linarith)
      rw [if_pos h2, hb']
      refine ⟨rfl, ?_, ?_, ?_, ?_⟩ <;> simp only [] <;> ring
    · have hb' : pos (vgs - p.vth vbs - vds) = vgs - p.vth vbs - vds := max_eq_left (by linarith)
      rw [if_neg h2, hb']
      refine ⟨rfl, ?_, ?_, ?_, ?_⟩ <;> simp only [] <;> ring

theorem vth_deriv (p : P1) (vbs : ℝ) (h : vbs < p.tphi) : HasDerivAt p.vth (-(p.gamma / (2 * Real.sqrt (p.tphi - vbs)))) vbs := by
  have h1 : HasDerivAt (fun x => p.tphi - x) (-1) vbs := by simpa using (hasDerivAt_id vbs).const_sub p.tphi
  have h2 := h1.sqrt (by linarith : p.tphi - vbs ≠ 0)
  have h3 := (((((h2.sub_const (Real.sqrt p.phi)).const_mul p.gamma).const_add p.vto).add_const (1 / 2 * (p.egap - p.tegap))).add_const
    (1 / 2 * (p.tphi - p.phi)))
  exact h3.congr_deriv (by ring)

/-- **C70, level 1.**  Current and slopes: along every smooth path of voltages the current of the square law changes as the slopes
say, across the borders of cutoff and saturation too. -/
theorem eval_slopes (p : P1) (ht : 0 < p.tphi) (g d b : ℝ → ℝ) (g' d' b' t : ℝ) (hg : HasDerivAt g g' t) (hd : HasDerivAt d d' t)
    (hb : HasDerivAt b b' t) (h0 : 0 ≤ d t) (hb0 : b t ≤ 0) :
    (p.eval (g t) (d t) (b t)).ids = p.I (g t) (d t) (b t) ∧
    HasDerivAt (fun x => p.I (g x) (d x) (b x))
      ((p.eval (g t) (d t) (b t)).gm * g' + (p.eval (g t) (d t) (b t)).gds * d' + (p.eval (g t) (d t) (b t)).gmb * b') t := by
  obtain ⟨_, e1, e2, e3, e4⟩ := eval_eq p (g t) (d t) (b t) h0 hb0
  refine ⟨e1, ?_⟩
  rw [e2, e3, e4]
  have hv : HasDerivAt (fun x => p.vth (b x)) (-(p.gamma / (2 * Real.sqrt (p.tphi - b t))) * b') t :=
    (vth_deriv p (b t) (by linarith)).comp t hb
  have hu : HasDerivAt (fun x => g x - p.vth (b x)) (g' - -(p.gamma / (2 * Real.sqrt (p.tphi - b t))) * b') t := hg.sub hv
  have ha := pos_sq_path _ _ t hu
  have hw : HasDerivAt (fun x => g x - p.vth (b x) - d x) (g' - -(p.gamma / (2 * Real.sqrt (p.tphi - b t))) * b' - d') t := hu.sub hd
  have hc := pos_sq_path _ _ t hw
  have hl : HasDerivAt (fun x => p.beta / 2 * (1 + p.lambda * d x)) (p.beta / 2 * (p.lambda * d')) t :=
    ((hd.const_mul p.lambda).const_add 1).const_mul (p.beta / 2)
  have hs : HasDerivAt (fun x => pos (g x - p.vth (b x)) ^ 2 - pos (g x - p.vth (b x) - d x) ^ 2) _ t := ha.sub hc
  exact (hl.mul hs).congr_deriv (by ring)

/-- At the nominal temperature the threshold is the textbook one. -/
theorem vth_nominal (vto gamma phi lambda kp w l k q kq tnom vbs : ℝ) (h : 0 < tnom) :
    (P1.at vto gamma phi lambda kp w l k q kq tnom tnom).vth vbs = vto + gamma * (Real.sqrt (phi - vbs) - Real.sqrt phi) ∧
    (P1.at vto gamma phi lambda kp w l k q kq tnom tnom).beta = kp * w / l := by
  have : tnom / tnom = 1 := div_self h.ne'
  simp [P1.vth, P1.at, this]

/-- the channel never delivers power, and current grows with gate and drain voltage -/
theorem eval_passive (p : P1) (hbt : 0 ≤ p.beta) (hl : 0 ≤ p.lambda) (hgam : 0 ≤ p.gamma) (vgs vds vbs : ℝ) (hd : 0 ≤ vds) (hb : vbs ≤ 0) :
    0 ≤ (p.eval vgs vds vbs).ids ∧ 0 ≤ (p.eval vgs vds vbs).gm ∧ 0 ≤ (p.eval vgs vds vbs).gds ∧ 0 ≤ (p.eval vgs vds vbs).gmb := by
  obtain ⟨_, e1, e2, e3, e4⟩ := eval_eq p vgs vds vbs hd hb
  rw [e1, e2, e3, e4]
  have hab : pos (vgs - p.vth vbs - vds) ≤ pos (vgs - p.vth vbs) := max_le_max (by linarith) le_rfl
  have hb0 : 0 ≤ pos (vgs - p.vth vbs - vds) := le_max_right _ _
  have h1 : 0 ≤ 1 + p.lambda * vds := by positivity
  have hsq : pos (vgs - p.vth vbs - vds) ^ 2 ≤ pos (vgs - p.vth vbs) ^ 2 := by gcongr
  have hd1 : 0 ≤ pos (vgs - p.vth vbs) - pos (vgs - p.vth vbs - vds) := by linarith
  have hd2 : 0 ≤ pos (vgs - p.vth vbs) ^ 2 - pos (vgs - p.vth vbs - vds) ^ 2 := by linarith
  unfold P1.I
  refine ⟨by positivity, by positivity, by positivity, by positivity⟩

/-! ## limiting comes to rest -/

theorem reach (f : ℝ → ℝ) (V : ℝ) (S : ℝ → Prop) (hS : ∀ x, S x → S (f x))
    (h : ∀ x, S x → f x = V ∨ |V - f x| ≤ |V - x| - 1 / 2) (x : ℝ) (hx : S x) : ∃ N, f^[N] x = V := by
  have : ∀ k : ℕ, ∀ x, S x → |V - x| ≤ k / 2 → ∃ N, f^[N] x = V := by
    intro k
    induction k with
    | zero =>
      intro x hx hk
      simp only [Nat.cast_zero, zero_div] at hk
      refine ⟨0, ?_⟩
      have := abs_eq_zero.1 (le_antisymm hk (abs_nonneg _))
      simp only [Function.iterate_zero, id]; linarith
    | succ k ih =>
      intro x hx hk
      rcases h x hx with h1 | h1
      · exact ⟨1, h1⟩
      · obtain ⟨N, hN⟩ := ih (f x) (hS x hx) (by push_cast at hk; linarith)
        exact ⟨N + 1, by rw [Function.iterate_succ_apply]; exact hN⟩
  obtain ⟨k, hk⟩ := exists_nat_ge (2 * |V - x|)
  exact this k x hx (by linarith)

theorem vgs_reaches (V vto x : ℝ) : ∃ N, (fun y => Limit.fetLimitVgs V y vto)^[N] x = V := by
  refine reach _ V (fun _ => True) (fun _ _ => trivial) (fun y _ => ?_) x trivial
  unfold Limit.fetLimitVgs
  simp only
  split_ifs <;> first
    | (left; ring; done)
    | (right; rcases le_total V y with h | h
       · rw [abs_of_nonpos (by linarith), abs_of_nonpos (by linarith)]; linarith
       · rw [abs_of_nonneg (by linarith), abs_of_nonneg (by linarith)]; linarith)

theorem vds_nonneg {V x : ℝ} (hV : 0 ≤ V) (hx : 0 ≤ x) : 0 ≤ Limit.fetLimitVds V x := by
  unfold Limit.fetLimitVds; split_ifs <;> linarith

theorem vds_reaches (V x : ℝ) (hV : 0 ≤ V) (hx : 0 ≤ x) : ∃ N, (fun y => Limit.fetLimitVds V y)^[N] x = V := by
  refine reach _ V (fun y => 0 ≤ y) (fun y hy => vds_nonneg hV hy) (fun y hy => ?_) x hx
  unfold Limit.fetLimitVds
  split_ifs <;> first
    | (left; rfl)
    | (exfalso; linarith)
    | (right; rcases le_total V y with h | h
       · rw [abs_of_nonpos (by linarith), abs_of_nonpos (by linarith)]; linarith
       · rw [abs_of_nonneg (by linarith), abs_of_nonneg (by linarith)]; linarith)

/-- what `tr_eval` and the lines after it do once the direction is known -/
noncomputable def St.body (c : Cfg) (s : St) : St :=
  let o := c.E s.vgs s.vds s.vbs
  let s := { s with von := o.von, vgst := o.vgst, vdsat := o.vdsat, gds := o.gds }
  let s :=
    if s.reversed then { s with ids := -o.ids, gmr := o.gm, gmbr := o.gmb, gmf := 0, gmbf := 0 }
    else { s with ids := o.ids, gmf := o.gm, gmbf := o.gmb, gmr := 0, gmbr := 0 }
  let s := if s.reversed != c.subFwd then
    { s with idb := o.isub, gdbds := o.gbd, gdbgs := o.gbg, gdbbs := o.gbb, isb := 0, gsbsd := 0, gsbgd := 0, gsbbd := 0 }
  else
    { s with idb := 0, gdbds := 0, gdbgs := 0, gdbbs := 0, isb := o.isub, gsbsd := o.gbd, gsbgd := o.gbg, gsbbd := o.gbb }
  s.lines c

theorem trEval_lines (c : Cfg) (s : St) : (s.trEval c).lines c = (s.reverseIfNeeded c).body c := rfl

theorem body_volts (c : Cfg) (s : St) :
    (s.body c).reversed = s.reversed ∧ (s.body c).vds = s.vds ∧ (s.body c).vgs = s.vgs ∧ (s.body c).vbs = s.vbs ∧
    (s.body c).von = (c.E s.vgs s.vds s.vbs).von := by
  unfold St.body St.lines
  cases h1 : s.reversed <;> cases h2 : c.subFwd <;> simp [h1, h2]

theorem body_body (c : Cfg) (s : St) : (s.body c).body c = s.body c := by
  unfold St.body St.lines
  cases h1 : s.reversed <;> cases h2 : c.subFwd <;> simp [h1, h2]

/-- Specification: at rest.  The device is evaluated, in a direction in which its drain voltage is not negative, at the voltages of
its nodes, that of the bulk cut off at zero. -/
def Settled (c : Cfg) (v : Nodes) (s : St) : Prop :=
  0 ≤ effVds c v s.reversed ∧ s.vds = effVds c v s.reversed ∧ s.vgs = effVgs c v s.reversed ∧ s.vbs = min (effVbs c v s.reversed) 0 ∧
  s.body c = s

/-- voltages after limiting (d_mos.model:517-540) -/
noncomputable def St.pre (c : Cfg) (v : Nodes) (s : St) : St :=
  let vgs := Limit.fetLimitVgs (effVgs c v s.reversed) s.vgs s.von
  let vds :=
    if c.dg then effVds c v s.reversed + (vgs - effVgs c v s.reversed) else Limit.fetLimitVds (effVds c v s.reversed) s.vds
  { s with vgs := vgs, vds := vds, vbs := min (effVbs c v s.reversed) 0 }

theorem doTr_eq (c : Cfg) (v : Nodes) (s : St) : s.doTr c false v = ((s.pre c v).reverseIfNeeded c).body c := rfl

theorem effVds_not (c : Cfg) (v : Nodes) (r : Bool) : effVds c v (!r) = -effVds c v r := by cases r <;> simp [effVds] <;> ring

theorem effVgs_not (c : Cfg) (v : Nodes) (r : Bool) : effVgs c v (!r) = effVgs c v r - effVds c v r := by
  cases r <;> simp [effVds, effVgs] <;> ring

/-- a step that does not reverse -/
theorem step_stay (c : Cfg) (v : Nodes) (s : St) (h : 0 ≤ (s.pre c v).vds) : s.doTr c false v = (s.pre c v).body c := by
  rw [doTr_eq]
  unfold St.reverseIfNeeded
  rw [if_neg (not_lt.2 h)]

/-- a step that does -/
theorem step_flip (c : Cfg) (v : Nodes) (s : St) (h : (s.pre c v).vds < 0) :
    (s.doTr c false v).reversed = (!s.reversed) ∧ (s.doTr c false v).vds = -(s.pre c v).vds ∧
    (s.doTr c false v).vgs = (s.pre c v).vgs - (s.pre c v).vds := by
  rw [doTr_eq]
  obtain ⟨h1, h2, h3, _, _⟩ := body_volts c ((s.pre c v).reverseIfNeeded c)
  rw [h1, h2, h3]
  unfold St.reverseIfNeeded
  rw [if_pos h]
  exact ⟨rfl, rfl, rfl⟩

theorem stay_volts (c : Cfg) (v : Nodes) (s : St) (h : 0 ≤ (s.pre c v).vds) :
    (s.doTr c false v).reversed = s.reversed ∧ (s.doTr c false v).vds = (s.pre c v).vds ∧
    (s.doTr c false v).vgs = Limit.fetLimitVgs (effVgs c v s.reversed) s.vgs s.von ∧
    (s.doTr c false v).vbs = min (effVbs c v s.reversed) 0 ∧
    (s.doTr c false v).von = (c.E (s.pre c v).vgs (s.pre c v).vds (min (effVbs c v s.reversed) 0)).von := by
  rw [step_stay c v s h]
  obtain ⟨h1, h2, h3, h4, h5⟩ := body_volts c (s.pre c v)
  exact ⟨h1, h2, h3, h4, h5⟩

/-- after any step the drain voltage is not negative and evaluating again changes nothing -/
theorem step_vds (c : Cfg) (v : Nodes) (s : St) : 0 ≤ (s.doTr c false v).vds ∧ (s.doTr c false v).body c = s.doTr c false v := by
  constructor
  · rcases le_or_gt 0 (s.pre c v).vds with h | h
    · rw [(stay_volts c v s h).2.1]; exact h
    · rw [(step_flip c v s h).2.1]; linarith
  · rw [doTr_eq, body_body]

/-- **C70.**  What is at rest stays. -/
theorem settled_fixed (c : Cfg) (v : Nodes) (s : St) (h : Settled c v s) : s.doTr c false v = s := by
  obtain ⟨h0, h1, h2, h3, h4⟩ := h
  have hp : s.pre c v = s := by
    have hg : Limit.fetLimitVgs (effVgs c v s.reversed) s.vgs s.von = s.vgs := by rw [h2]; exact Limit.vgs_fixed _ _
    have hd : Limit.fetLimitVds (effVds c v s.reversed) s.vds = s.vds := by
      rw [h1]; exact Limit.vds_fixed_partial _ (by linarith)
    unfold St.pre
    simp only [hg, hd]
    rw [h2, ← h3, sub_self, add_zero, ← h1, ← h2, ite_self]
  rw [step_stay c v s (by rw [hp, h1]; exact h0), hp, h4]

/-- gets to rest -/
def Done (c : Cfg) (v : Nodes) (s : St) : Prop := ∃ N, Settled c v ((St.doTr c false v)^[N] s)

theorem done_step (c : Cfg) (v : Nodes) (s : St) (h : Done c v (s.doTr c false v)) : Done c v s := by
  obtain ⟨N, hN⟩ := h
  exact ⟨N + 1, by rwa [Function.iterate_succ_apply]⟩

/-- a step that does not reverse and ends at the voltages of the nodes -/
theorem settle_stay (c : Cfg) (v : Nodes) (s : St) (hw : 0 ≤ effVds c v s.reversed) (hd : (s.pre c v).vds = effVds c v s.reversed)
    (hg : s.vgs = effVgs c v s.reversed) : Settled c v (s.doTr c false v) := by
  obtain ⟨e1, e2, e3, e4, _⟩ := stay_volts c v s (by rw [hd]; exact hw)
  refine ⟨by rw [e1]; exact hw, by rw [e1, e2, hd], ?_, by rw [e1, e4], (step_vds c v s).2⟩
  rw [e1, e3, hg]
  exact Limit.vgs_fixed _ _

section dg

/-- drain and gate one node: once the gate voltage is right -/
theorem done_dg0 (c : Cfg) (v : Nodes) (hdg : c.dg = true) (s : St) (hg : s.vgs = effVgs c v s.reversed) : Done c v s := by
  have pd : ∀ s : St, s.vgs = effVgs c v s.reversed → (s.pre c v).vds = effVds c v s.reversed := by
    intro s hg
    unfold St.pre
    simp only [hdg, if_true]
    rw [hg, Limit.vgs_fixed]; ring
  rcases le_or_gt 0 (effVds c v s.reversed) with h | h
  · exact ⟨1, settle_stay c v s h (pd s hg) hg⟩
  · obtain ⟨e1, e2, e3⟩ := step_flip c v s (by rw [pd s hg]; exact h)
    have hpg : (s.pre c v).vgs = effVgs c v s.reversed := by
      unfold St.pre; simp only; rw [hg, Limit.vgs_fixed]
    apply done_step
    have hg' : (s.doTr c false v).vgs = effVgs c v (s.doTr c false v).reversed := by
      rw [e1, e3, hpg, pd s hg, effVgs_not]
    refine ⟨1, settle_stay c v _ ?_ (pd _ hg') hg'⟩
    rw [e1, effVds_not]; linarith

theorem done_dg (c : Cfg) (v : Nodes) (hdg : c.dg = true) (vth : ℝ → ℝ) (hE : ∀ g d b, (c.E g d b).von = vth b) (N : ℕ) (s : St)
    (hv : s.von = vth (min (effVbs c v s.reversed) 0))
    (hN : (fun y => Limit.fetLimitVgs (effVgs c v s.reversed) y s.von)^[N] s.vgs = effVgs c v s.reversed) : Done c v s := by
  induction N generalizing s with
  | zero => exact done_dg0 c v hdg s hN
  | succ N ih =>
    apply done_step
    rcases le_or_gt 0 (s.pre c v).vds with h | h
    · obtain ⟨e1, _, e3, _, e5⟩ := stay_volts c v s h
      rw [hE] at e5
      have e6 : (s.doTr c false v).von = s.von := by rw [e5, hv]
      apply ih
      · rw [e5, e1]
      · rw [e1, e6, e3]
        rw [Function.iterate_succ_apply] at hN
        exact hN
    · obtain ⟨e1, _, e3⟩ := step_flip c v s h
      apply done_dg0 c v hdg
      rw [e1, e3, effVgs_not]
      unfold St.pre
      simp only [hdg, if_true]
      ring

end dg

/-- drain and gate apart: in the right direction -/
theorem done_right (c : Cfg) (v : Nodes) (hdg : c.dg = false) (vth : ℝ → ℝ) (hE : ∀ g d b, (c.E g d b).von = vth b) (N : ℕ) (s : St)
    (hw : 0 ≤ effVds c v s.reversed) (hs : 0 ≤ s.vds) (hv : s.von = vth (min (effVbs c v s.reversed) 0))
    (hG : (fun y => Limit.fetLimitVgs (effVgs c v s.reversed) y s.von)^[N] s.vgs = effVgs c v s.reversed)
    (hD : (fun y => Limit.fetLimitVds (effVds c v s.reversed) y)^[N] s.vds = effVds c v s.reversed) : Done c v s := by
  have pd : ∀ s : St, (s.pre c v).vds = Limit.fetLimitVds (effVds c v s.reversed) s.vds := by
    intro s
    unfold St.pre
    simp only [hdg, Bool.false_eq_true, if_false]
  induction N generalizing s with
  | zero =>
    simp only [Function.iterate_zero, id] at hG hD
    refine ⟨1, settle_stay c v s hw ?_ hG⟩
    rw [pd, hD]
    exact Limit.vds_fixed_partial _ (by linarith)
  | succ N ih =>
    apply done_step
    have hp : 0 ≤ (s.pre c v).vds := by rw [pd]; exact vds_nonneg hw hs
    obtain ⟨e1, e2, e3, _, e5⟩ := stay_volts c v s hp
    rw [hE] at e5
    have e6 : (s.doTr c false v).von = s.von := by rw [e5, hv]
    apply ih
    · rw [e1]; exact hw
    · rw [e2]; exact hp
    · rw [e5, e1]
    · rw [e1, e6, e3]
      rw [Function.iterate_succ_apply] at hG
      exact hG
    · rw [e1, e2, pd]
      rw [Function.iterate_succ_apply] at hD
      exact hD

/-- **C70, rest.**  With node voltages held, from any state whatever the device comes to rest after finitely many iterations (its
threshold being a function of the bulk voltage). -/
theorem settles (c : Cfg) (v : Nodes) (vth : ℝ → ℝ) (hE : ∀ g d b, (c.E g d b).von = vth b) (s : St) :
    ∃ N, ∀ n, N ≤ n → Settled c v ((St.doTr c false v)^[n] s) := by
  have key : Done c v s := by
    by_cases hdg : c.dg = true
    · apply done_step
      generalize ht : s.doTr c false v = t
      rcases le_or_gt 0 (t.pre c v).vds with h | h
      · obtain ⟨e1, _, e3, _, e5⟩ := stay_volts c v t h
        rw [hE] at e5
        apply done_step
        obtain ⟨N, hN⟩ := vgs_reaches (effVgs c v (t.doTr c false v).reversed) (t.doTr c false v).von (t.doTr c false v).vgs
        exact done_dg c v hdg vth hE N _ (by rw [e5, e1]) hN
      · obtain ⟨e1, _, e3⟩ := step_flip c v t h
        apply done_step
        apply done_dg0 c v hdg
        rw [e1, e3, effVgs_not]
        unfold St.pre
        simp only [hdg, if_true]
        ring
    · have hdg' : c.dg = false := by simpa using hdg
      have pd : ∀ s : St, (s.pre c v).vds = Limit.fetLimitVds (effVds c v s.reversed) s.vds := by
        intro s
        unfold St.pre
        simp only [hdg', Bool.false_eq_true, if_false]
      have right : ∀ s : St, 0 ≤ s.vds → 0 ≤ effVds c v s.reversed → Done c v s := by
        intro s hs hw
        apply done_step
        have hp : 0 ≤ (s.pre c v).vds := by rw [pd]; exact vds_nonneg hw hs
        obtain ⟨e1, e2, e3, _, e5⟩ := stay_volts c v s hp
        rw [hE] at e5
        generalize ht : s.doTr c false v = t at *
        obtain ⟨N1, h1⟩ := vgs_reaches (effVgs c v t.reversed) t.von t.vgs
        obtain ⟨N2, h2⟩ := vds_reaches (effVds c v t.reversed) t.vds (by rw [e1]; exact hw) (by rw [e2]; exact hp)
        refine done_right c v hdg' vth hE (N1 + N2) t (by rw [e1]; exact hw) (by rw [e2]; exact hp) (by rw [e5, e1]) ?_ ?_
        · rw [add_comm, Function.iterate_add_apply, h1]
          have hf : Limit.fetLimitVgs (effVgs c v t.reversed) (effVgs c v t.reversed) t.von = effVgs c v t.reversed := Limit.vgs_fixed _ _
          exact Function.iterate_fixed hf N2
        · rw [Function.iterate_add_apply, h2]
          have hf : Limit.fetLimitVds (effVds c v t.reversed) (effVds c v t.reversed) = effVds c v t.reversed :=
            Limit.vds_fixed_partial _ (by rw [e1]; linarith)
          exact Function.iterate_fixed hf N1
      have flip : ∀ s : St, 0 ≤ s.vds → s.vds < 7 / 2 → Done c v s := by
        intro s hs h35
        rcases le_or_gt 0 (effVds c v s.reversed) with h | h
        · exact right s hs h
        · have hp : (s.pre c v).vds < 0 := by
            rw [pd]; unfold Limit.fetLimitVds; rw [if_neg (not_le.2 h35)]; split_ifs <;> linarith
          obtain ⟨e1, e2, _⟩ := step_flip c v s hp
          apply done_step
          apply right _ (by rw [e2]; linarith)
          rw [e1, effVds_not]; linarith
      apply done_step
      have hs := (step_vds c v s).1
      generalize s.doTr c false v = t at hs
      rcases lt_or_ge t.vds (7 / 2) with h35 | h35
      · exact flip t hs h35
      · rcases le_or_gt 0 (effVds c v t.reversed) with h | h
        · exact right t hs h
        · have hp : (t.pre c v).vds = 2 := by
            rw [pd]; unfold Limit.fetLimitVds; rw [if_pos h35, if_neg (by linarith), if_pos (by linarith)]
          obtain ⟨e1, e2, _⟩ := stay_volts c v t (by rw [hp]; norm_num)
          apply done_step
          apply flip _ (by rw [e2, hp]; norm_num)
          rw [e2, hp]; norm_num
  obtain ⟨N, hN⟩ := key
  refine ⟨N, fun n hn => ?_⟩
  obtain ⟨k, rfl⟩ := Nat.exists_eq_add_of_le hn
  rw [add_comm, Function.iterate_add_apply, Function.iterate_fixed (settled_fixed c v _ hN) k]
  exact hN

/-! ## currents at rest -/

/-- the state at rest in terms of the equations -/
theorem settled_out (c : Cfg) (v : Nodes) (s : St) (h : Settled c v s) :
    let o := c.E s.vgs s.vds s.vbs
    s.gds = o.gds ∧ s.ids = (if s.reversed then -o.ids else o.ids) * c.pol ∧
    (s.reversed = false → s.gmf = o.gm ∧ s.gmbf = o.gmb ∧ s.gmr = 0 ∧ s.gmbr = 0) ∧
    (s.reversed = true → s.gmr = o.gm ∧ s.gmbr = o.gmb ∧ s.gmf = 0 ∧ s.gmbf = 0) ∧
    s.idsxxx = (if s.reversed then -o.ids + s.vds * o.gds + s.vgs * o.gm + s.vbs * o.gmb
      else o.ids - s.vds * o.gds - s.vgs * o.gm - s.vbs * o.gmb) * c.pol := by
  obtain ⟨_, _, _, _, hb⟩ := h
  have e : ∀ f : St → ℝ, f s = f (s.body c) := fun f => by rw [hb]
  simp only
  rw [e St.gds, e St.ids, e St.gmf, e St.gmbf, e St.gmr, e St.gmbr, e St.idsxxx]
  unfold St.body St.lines
  cases h1 : s.reversed <;> cases h2 : c.subFwd <;> simp [h1, h2]

/-- **C70.**  At rest the current that flows is the one reported, as long as the bulk is not forward biased. -/
theorem settled_flow (c : Cfg) (v : Nodes) (s : St) (h : Settled c v s) (hp : c.pol = 1 ∨ c.pol = -1) :
    s.iDS v = s.ids + (if s.reversed then -1 else 1) * c.pol * (c.E s.vgs s.vds s.vbs).gmb * max (effVbs c v s.reversed) 0 := by
  obtain ⟨e1, e2, e3, e4, e5⟩ := settled_out c v s h
  obtain ⟨_, hd, hg, hb, _⟩ := h
  have hmm : max (effVbs c v s.reversed) 0 = effVbs c v s.reversed - s.vbs := by
    rw [hb]; rcases le_total (effVbs c v s.reversed) 0 with h | h <;> simp [h]
  have hpp : c.pol * c.pol = 1 := by rcases hp with h | h <;> rw [h] <;> norm_num
  rw [hmm]
  unfold St.iDS
  rw [e1, e2, e5]
  cases hr : s.reversed
  · obtain ⟨f1, f2, f3, f4⟩ := e3 hr
    simp only [hr, effVds, effVgs, effVbs, Bool.false_eq_true, if_false] at hd hg ⊢
    rw [f1, f2, f3, f4]
    generalize (c.E s.vgs s.vds s.vbs) = o
    rw [hd, hg]
    linear_combination (-o.gds * (v.d - v.s) - o.gm * (v.g - v.s) - o.gmb * (v.b - v.s)) * hpp
  · obtain ⟨f1, f2, f3, f4⟩ := e4 hr
    simp only [hr, effVds, effVgs, effVbs, if_true] at hd hg ⊢
    rw [f1, f2, f3, f4]
    generalize (c.E s.vgs s.vds s.vbs) = o
    rw [hd, hg]
    linear_combination (-o.gds * (v.d - v.s) + o.gm * (v.g - v.d) + o.gmb * (v.b - v.d)) * hpp

/-- Specification: the current from drain to source of a symmetric device -/
noncomputable def P1.F (p : P1) (pol : ℝ) (v : Nodes) : ℝ :=
  pol * (if 0 ≤ pol * (v.d - v.s) then p.I (pol * (v.g - v.s)) (pol * (v.d - v.s)) (pol * (v.b - v.s))
    else -p.I (pol * (v.g - v.d)) (pol * (v.s - v.d)) (pol * (v.b - v.d)))

/-- drain and source can be exchanged -/
theorem F_swap (p : P1) (pol : ℝ) (v : Nodes) : p.F pol ⟨v.s, v.g, v.d, v.b⟩ = -p.F pol v := by
  unfold P1.F
  have e : pol * (v.s - v.d) = -(pol * (v.d - v.s)) := by ring
  simp only
  rcases lt_trichotomy (pol * (v.d - v.s)) 0 with h | h | h
  · rw [if_pos (by rw [e]; linarith), if_neg (not_le.2 h)]; ring
  · have h' : pol * (v.s - v.d) = 0 := by rw [e, h, neg_zero]
    rw [if_pos h'.ge, if_pos h.ge, h, h']
    simp [P1.I]
  · rw [if_neg (by rw [e]; linarith), if_pos h.le]; ring

/-- a p channel device is the mirror image -/
theorem F_mirror (p : P1) (v : Nodes) : p.F (-1) v = -p.F 1 ⟨-v.d, -v.g, -v.s, -v.b⟩ := by
  unfold P1.F
  simp only [neg_mul, one_mul, show ∀ a b : ℝ, -a - -b = -(a - b) from fun a b => by ring]

/-- at no drain voltage neither gate nor bulk matter -/
theorem eval_zero (p : P1) (vgs vbs : ℝ) (hb : vbs ≤ 0) : (p.eval vgs 0 vbs).gm = 0 ∧ (p.eval vgs 0 vbs).gmb = 0 := by
  obtain ⟨_, _, e2, _, e4⟩ := eval_eq p vgs 0 vbs le_rfl hb
  rw [e2, e4]; simp

/-- **C70, level 1 device.**  At rest, bulk not forward biased: the current is that of the square law at the node voltages, and
what is loaded is its tangent along every smooth path of the node voltages. -/
theorem device_tangent (p : P1) (ht : 0 < p.tphi) (c : Cfg) (hc : c.E = p.eval) (hp : c.pol = 1 ∨ c.pol = -1)
    (d g s b : ℝ → ℝ) (d' g' s' b' t : ℝ) (hd : HasDerivAt d d' t) (hg : HasDerivAt g g' t) (hs : HasDerivAt s s' t)
    (hb : HasDerivAt b b' t) (st : St) (h : Settled c ⟨d t, g t, s t, b t⟩ st)
    (hbulk : effVbs c ⟨d t, g t, s t, b t⟩ st.reversed ≤ 0) :
    st.iDS ⟨d t, g t, s t, b t⟩ = p.F c.pol ⟨d t, g t, s t, b t⟩ ∧
    HasDerivAt (fun x => p.F c.pol ⟨d x, g x, s x, b x⟩) (st.iDS ⟨d', g', s', b'⟩ - st.iDS ⟨0, 0, 0, 0⟩) t := by
  have hflow := settled_flow c _ st h hp
  rw [max_eq_right hbulk, mul_zero, add_zero] at hflow
  obtain ⟨e1, e2, e3, e4, e5⟩ := settled_out c _ st h
  obtain ⟨h0, hvd, hvg, hvb, _⟩ := h
  rw [min_eq_left hbulk] at hvb
  have hpp : c.pol * c.pol = 1 := by rcases hp with h | h <;> rw [h] <;> norm_num
  rw [hc] at e1 e2 e3 e4
  simp only [effVds, effVgs, effVbs] at h0 hvd hvg hvb hbulk
  generalize c.pol = q at *
  -- the law in the two directions along the path
  have pa : ∀ u w : ℝ → ℝ, ∀ u' w' : ℝ, HasDerivAt u u' t → HasDerivAt w w' t → HasDerivAt (fun x => q * (u x - w x)) (q * (u' - w')) t :=
    fun u w u' w' hu hw => (hu.sub hw).const_mul q
  have hA : 0 ≤ q * (d t - s t) → q * (b t - s t) ≤ 0 →
      HasDerivAt (fun x => q * p.I (q * (g x - s x)) (q * (d x - s x)) (q * (b x - s x)))
        ((p.eval (q * (g t - s t)) (q * (d t - s t)) (q * (b t - s t))).gm * (g' - s') +
         (p.eval (q * (g t - s t)) (q * (d t - s t)) (q * (b t - s t))).gds * (d' - s') +
         (p.eval (q * (g t - s t)) (q * (d t - s t)) (q * (b t - s t))).gmb * (b' - s')) t := fun h1 h2 =>
    ((eval_slopes p ht _ _ _ _ _ _ t (pa g s _ _ hg hs) (pa d s _ _ hd hs) (pa b s _ _ hb hs) h1 h2).2.const_mul q).congr_deriv (by
      generalize p.eval (q * (g t - s t)) (q * (d t - s t)) (q * (b t - s t)) = o
      linear_combination (o.gm * (g' - s') + o.gds * (d' - s') + o.gmb * (b' - s')) * hpp)
  have hB : 0 ≤ q * (s t - d t) → q * (b t - d t) ≤ 0 →
      HasDerivAt (fun x => q * -p.I (q * (g x - d x)) (q * (s x - d x)) (q * (b x - d x)))
        ((p.eval (q * (g t - d t)) (q * (s t - d t)) (q * (b t - d t))).gm * (d' - g') +
         (p.eval (q * (g t - d t)) (q * (s t - d t)) (q * (b t - d t))).gds * (d' - s') +
         (p.eval (q * (g t - d t)) (q * (s t - d t)) (q * (b t - d t))).gmb * (d' - b')) t := fun h1 h2 =>
    ((eval_slopes p ht _ _ _ _ _ _ t (pa g d _ _ hg hd) (pa s d _ _ hs hd) (pa b d _ _ hb hd) h1 h2).2.neg.const_mul q).congr_deriv (by
      generalize p.eval (q * (g t - d t)) (q * (s t - d t)) (q * (b t - d t)) = o
      linear_combination (o.gm * (d' - g') + o.gds * (d' - s') + o.gmb * (d' - b')) * hpp)
  have lin : st.iDS ⟨d', g', s', b'⟩ - st.iDS ⟨0, 0, 0, 0⟩ =
      st.gds * (d' - s') + st.gmf * (g' - s') + st.gmr * (d' - g') + st.gmbf * (b' - s') + st.gmbr * (d' - b') := by
    unfold St.iDS; ring
  rw [lin, hflow]
  cases hr : st.reversed
  · simp only [hr, Bool.false_eq_true, if_false] at h0 hvd hvg hvb hbulk e2
    obtain ⟨f1, f2, f3, f4⟩ := e3 hr
    rw [hvd, hvg, hvb] at e1 e2 f1 f2
    refine ⟨?_, ?_⟩
    · rw [e2, (eval_eq p _ _ _ h0 hbulk).2.1]
      unfold P1.F
      simp only [if_pos h0]
      ring
    · have hA' := (hA h0 hbulk).congr_deriv (g' := st.gds * (d' - s') + st.gmf * (g' - s') + st.gmr * (d' - g') + st.gmbf * (b' - s') +
        st.gmbr * (d' - b')) (by rw [e1, f1, f2, f3, f4]; ring)
      rcases eq_or_lt_of_le h0 with hz | hz
      · have hds : d t = s t := by
          have : q ≠ 0 := by intro hh; rw [hh] at hpp; simp at hpp
          have := (mul_eq_zero.1 hz.symm).resolve_left this
          linarith
        have hz' : q * (s t - d t) = 0 := by rw [hds]; ring
        have hb2 : q * (b t - d t) ≤ 0 := by rw [hds]; exact hbulk
        have hB' := hB hz'.ge hb2
        obtain ⟨z1, z2⟩ := eval_zero p (q * (g t - d t)) (q * (b t - d t)) hb2
        rw [hz', z1, z2] at hB'
        obtain ⟨z3, z4⟩ := eval_zero p (q * (g t - s t)) (q * (b t - s t)) hbulk
        rw [← hz] at e1 f1 f2
        refine hasDerivAt_either _ _ _ _ _ hA' (hB'.congr_deriv ?_) ?_ fun x => ?_
        · rw [e1, f1, f2, f3, f4, z3, z4, hds]; ring
        · simp only [hz', ← hz]; simp [P1.I]
        · unfold P1.F
          simp only
          split
          · left; rfl
          · right; rfl
      · refine hA'.congr_of_eventuallyEq ?_
        filter_upwards [(pa d s _ _ hd hs).continuousAt.eventually (lt_mem_nhds hz)] with x hx
        unfold P1.F
        simp only [if_pos hx.le]
  · simp only [hr, if_true] at h0 hvd hvg hvb hbulk e2
    obtain ⟨f1, f2, f3, f4⟩ := e4 hr
    rw [hvd, hvg, hvb] at e1 e2 f1 f2
    have hB' := (hB h0 hbulk).congr_deriv (g' := st.gds * (d' - s') + st.gmf * (g' - s') + st.gmr * (d' - g') + st.gmbf * (b' - s') +
      st.gmbr * (d' - b')) (by rw [e1, f1, f2, f3, f4]; ring)
    have hneg : q * (d t - s t) = -(q * (s t - d t)) := by ring
    rcases eq_or_lt_of_le h0 with hz | hz
    · have hds : s t = d t := by
        have : q ≠ 0 := by intro hh; rw [hh] at hpp; simp at hpp
        have := (mul_eq_zero.1 hz.symm).resolve_left this
        linarith
      have hz' : q * (d t - s t) = 0 := by rw [hds]; ring
      have hb2 : q * (b t - s t) ≤ 0 := by rw [hds]; exact hbulk
      refine ⟨?_, ?_⟩
      · rw [e2, (eval_eq p _ _ _ h0 hbulk).2.1]
        unfold P1.F
        simp only [if_pos hz'.ge]
        rw [hz', ← hz]
        simp [P1.I]
      have hA' := hA hz'.ge hb2
      obtain ⟨z1, z2⟩ := eval_zero p (q * (g t - s t)) (q * (b t - s t)) hb2
      rw [hz', z1, z2] at hA'
      obtain ⟨z3, z4⟩ := eval_zero p (q * (g t - d t)) (q * (b t - d t)) hbulk
      rw [← hz] at e1 f1 f2
      refine hasDerivAt_either _ _ _ _ _ (hA'.congr_deriv ?_) hB' ?_ fun x => ?_
      · rw [e1, f1, f2, f3, f4, z3, z4, hds]; ring
      · simp only [hz', ← hz]; simp [P1.I]
      · unfold P1.F
        simp only
        split
        · left; rfl
        · right; rfl
    · refine ⟨?_, ?_⟩
      · rw [e2, (eval_eq p _ _ _ h0 hbulk).2.1]
        unfold P1.F
        simp only [if_neg (show ¬ 0 ≤ q * (d t - s t) by rw [hneg]; linarith)]
        ring
      · refine hB'.congr_of_eventuallyEq ?_
        filter_upwards [(pa s d _ _ hs hd).continuousAt.eventually (lt_mem_nhds hz)] with x hx
        unfold P1.F
        have : ¬ 0 ≤ q * (d x - s x) := by
          have e : q * (d x - s x) = -(q * (s x - d x)) := by ring
          rw [e]; linarith
        simp only [if_neg this]

/-- the threshold of level 1 is a function of the bulk voltage -/
theorem eval_von (p : P1) : ∃ vth : ℝ → ℝ, ∀ g d b, (p.eval g d b).von = vth b := by
  refine ⟨fun b => p.vto + p.gamma * ((p.sarg b).1 - Real.sqrt p.phi) + 1 / 2 * (p.egap - p.tegap) + 1 / 2 * (p.tphi - p.phi), fun g d b => ?_⟩
  unfold P1.eval
  simp only
  split_ifs <;> rfl

/-- **C70, level 1, from any state.**  With node voltages held, after finitely many iterations the current loaded is, and stays, that
of the square law, if the bulk is at or below source and drain (above, for a p channel). -/
theorem device_current (p : P1) (ht : 0 < p.tphi) (c : Cfg) (hc : c.E = p.eval) (hp : c.pol = 1 ∨ c.pol = -1) (v : Nodes)
    (h1 : c.pol * (v.b - v.s) ≤ 0) (h2 : c.pol * (v.b - v.d) ≤ 0) (s : St) :
    ∃ N, ∀ n, N ≤ n → ((St.doTr c false v)^[n] s).iDS v = p.F c.pol v := by
  obtain ⟨vth, hv⟩ := eval_von p
  obtain ⟨N, hN⟩ := settles c v vth (by rw [hc]; exact hv) s
  refine ⟨N, fun n hn => ?_⟩
  have hst := hN n hn
  refine (device_tangent p ht c hc hp (fun _ => v.d) (fun _ => v.g) (fun _ => v.s) (fun _ => v.b) 0 0 0 0 0 (hasDerivAt_const _ _)
    (hasDerivAt_const _ _) (hasDerivAt_const _ _) (hasDerivAt_const _ _) _ hst ?_).1
  unfold effVbs
  split
  · exact h2
  · exact h1

/-- an n channel device, saturated: threshold 1, gate at 3, drain at 10 -/
example (s : St) : ∃ M, ∀ m, M ≤ m →
    ((St.doTr ⟨(P1.mk 1 0 1 0 0 1 0 2).eval, 1, false, false, true⟩ false ⟨10, 3, 0, 0⟩)^[m] s).iDS ⟨10, 3, 0, 0⟩ = 4 := by
  obtain ⟨N, hN⟩ := device_current (P1.mk 1 0 1 0 0 1 0 2) (by norm_num) ⟨_, 1, false, false, true⟩ rfl (Or.inl rfl) ⟨10, 3, 0, 0⟩
    (by norm_num) (by norm_num) s
  refine ⟨N, fun n hn => (hN n hn).trans ?_⟩
  norm_num [P1.F, P1.I, P1.vth, pos]

/-- **C70 fails with the bulk forward biased** (d_mos.model:541): the device is evaluated at no bulk voltage, but loaded with its slope,
so more flows than is reported. -/
theorem bulk_forward (p : P1) (ht : 0 < p.tphi) (hgam : 0 < p.gamma) (hbeta : 0 < p.beta) (hlam : 0 ≤ p.lambda) (c : Cfg) (hc : c.E = p.eval)
    (hp : c.pol = 1) (v : Nodes) (s : St) (h : Settled c v s) (hr : s.reversed = false) (hd : v.s < v.d) (hb : v.s < v.b)
    (hon : p.vth 0 < v.g - v.s) : s.ids < s.iDS v := by
  have hf := settled_flow c v s h (Or.inl hp)
  obtain ⟨_, hvd, hvg, hvb, _⟩ := h
  simp only [hr, effVds, effVgs, effVbs, hp, one_mul, Bool.false_eq_true, if_false] at hvd hvg hvb hf
  rw [min_eq_right (by linarith)] at hvb
  rw [max_eq_left (by linarith)] at hf
  rw [hf, hc, hvd, hvg, hvb]
  have e4 := (eval_eq p (v.g - v.s) (v.d - v.s) 0 (by linarith) le_rfl).2.2.2.2
  rw [e4]
  have ha : pos (v.g - v.s - p.vth 0) = v.g - v.s - p.vth 0 := max_eq_left (by linarith)
  have hlt : pos (v.g - v.s - p.vth 0 - (v.d - v.s)) < pos (v.g - v.s - p.vth 0) := by
    rw [ha]; exact max_lt (by linarith) (by linarith)
  have h1 : 0 < 1 + p.lambda * (v.d - v.s) := by have : 0 ≤ p.lambda * (v.d - v.s) := mul_nonneg hlam (by linarith)
                                                 linarith
  have h2 : 0 < Real.sqrt (p.tphi - 0) := Real.sqrt_pos.2 (by linarith)
  have h3 : 0 < pos (v.g - v.s - p.vth 0) - pos (v.g - v.s - p.vth 0 - (v.d - v.s)) := by linarith
  have h4 : 0 < v.b - v.s := by linarith
  have : 0 < p.beta * (1 + p.lambda * (v.d - v.s)) * (pos (v.g - v.s - p.vth 0) - pos (v.g - v.s - p.vth 0 - (v.d - v.s))) *
      (p.gamma / (2 * Real.sqrt (p.tphi - 0))) * (v.b - v.s) := by positivity
  linarith

/-- With bit 0040 of mosflags the forward branch of the body effect can be reached (on reversal); its slope is the right one times
`tphi` (d_mos1.model:132, marked wrong there). -/
theorem body_slope_wrong (p : P1) (ht : 0 < p.tphi) (vbs : ℝ) (hb : 0 < vbs) :
    HasDerivAt (fun x => (p.sarg x).1) ((p.sarg vbs).2 / p.tphi) vbs := by
  have hpos : 0 < 1 + 1 / 2 * vbs / p.tphi := by positivity
  have h1 : HasDerivAt (fun x : ℝ => 1 + 1 / 2 * x / p.tphi) (1 / 2 / p.tphi) vbs := by
    have := ((((hasDerivAt_id vbs).const_mul (1 / 2 : ℝ)).div_const p.tphi).const_add 1)
    exact this.congr_deriv (by ring)
  have h2 : HasDerivAt (fun x : ℝ => Real.sqrt p.tphi * (1 + 1 / 2 * x / p.tphi)⁻¹) _ vbs := (h1.inv hpos.ne').const_mul (Real.sqrt p.tphi)
  have h3 : (fun x => (p.sarg x).1) =ᶠ[nhds vbs] fun x : ℝ => Real.sqrt p.tphi * (1 + 1 / 2 * x / p.tphi)⁻¹ := by
    filter_upwards [lt_mem_nhds hb] with x hx
    simp only [P1.sarg, if_neg (not_le.2 hx)]
    rfl
  refine (h2.congr_of_eventuallyEq h3).congr_deriv ?_
  simp only [P1.sarg, if_neg (not_le.2 hb)]
  have hs : Real.sqrt p.tphi * Real.sqrt p.tphi = p.tphi := Real.mul_self_sqrt ht.le
  have hsne : Real.sqrt p.tphi ≠ 0 := (Real.sqrt_pos.2 ht).ne'
  have hne := hpos.ne'
  have htn := ht.ne'
  generalize Real.sqrt p.tphi = r at *
  rw [← hs] at *
  field_simp

/-! ## substrate current -/

/-- the lines of the substrate current at rest -/
theorem settled_sub (c : Cfg) (v : Nodes) (s : St) (h : Settled c v s) :
    let o := c.E s.vgs s.vds s.vbs
    (s.reversed = false → (∀ u, s.iDB u = if c.subFwd then o.isub - s.vds * o.gbd - s.vgs * o.gbg - s.vbs * o.gbb + o.gbd * (u.d - u.s) +
        o.gbg * (u.g - u.s) + o.gbb * (u.b - u.s) else 0) ∧
      ∀ u, s.iSB u = if c.subFwd then 0 else o.gbd * (u.s - u.d) + o.gbg * (u.g - u.d) + o.gbb * (u.b - u.d)) ∧
    (s.reversed = true → (∀ u, s.iSB u = if c.subFwd then o.isub - s.vds * o.gbd - s.vgs * o.gbg - s.vbs * o.gbb + o.gbd * (u.s - u.d) +
        o.gbg * (u.g - u.d) + o.gbb * (u.b - u.d) else 0) ∧
      ∀ u, s.iDB u = if c.subFwd then 0 else o.gbd * (u.d - u.s) + o.gbg * (u.g - u.s) + o.gbb * (u.b - u.s)) := by
  obtain ⟨_, _, _, _, hb⟩ := h
  have e : ∀ (f : St → Nodes → ℝ) u, f s u = f (s.body c) u := fun f u => by rw [hb]
  simp only
  constructor
  · intro hr
    constructor <;> intro u
    · rw [e St.iDB]
      unfold St.iDB St.body St.lines
      cases h2 : c.subFwd <;> simp [hr, h2]
    · rw [e St.iSB]
      unfold St.iSB St.body St.lines
      cases h2 : c.subFwd <;> simp [hr, h2]
  · intro hr
    constructor <;> intro u
    · rw [e St.iSB]
      unfold St.iSB St.body St.lines
      cases h2 : c.subFwd <;> simp [hr, h2]
    · rw [e St.iDB]
      unfold St.iDB St.body St.lines
      cases h2 : c.subFwd <;> simp [hr, h2]

/-- **C70, substrate current, level 8, n channel.**  At rest it flows from the end that works as drain, and nothing from the other. -/
theorem sub_n (c : Cfg) (hf : c.subFwd = true) (hp : c.pol = 1) (v : Nodes) (s : St) (h : Settled c v s)
    (hbulk : effVbs c v s.reversed ≤ 0) :
    (s.reversed = false → s.iDB v = (c.E s.vgs s.vds s.vbs).isub ∧ s.iSB v = 0) ∧
    (s.reversed = true → s.iSB v = (c.E s.vgs s.vds s.vbs).isub ∧ s.iDB v = 0) := by
  obtain ⟨a, b⟩ := settled_sub c v s h
  obtain ⟨_, hvd, hvg, hvb, _⟩ := h
  rw [min_eq_left hbulk] at hvb
  constructor
  · intro hr
    obtain ⟨x, y⟩ := a hr
    rw [x, y, hf]
    simp only [hr, effVds, effVgs, effVbs, hp, one_mul, Bool.false_eq_true, if_false] at hvd hvg hvb
    generalize c.E s.vgs s.vds s.vbs = o
    rw [hvd, hvg, hvb]
    exact ⟨by simp only [if_true]; ring, rfl⟩
  · intro hr
    obtain ⟨x, y⟩ := b hr
    rw [x, y, hf]
    simp only [hr, effVds, effVgs, effVbs, hp, one_mul, if_true] at hvd hvg hvb
    generalize c.E s.vgs s.vds s.vbs = o
    rw [hvd, hvg, hvb]
    exact ⟨by simp only [if_true]; ring, rfl⟩

/-- **... fails for a p channel** (d_mos.model:561-569): `idbxxx` is not multiplied by the polarity.  Instead of `-isub`: -/
theorem sub_p (c : Cfg) (hf : c.subFwd = true) (hp : c.pol = -1) (v : Nodes) (s : St) (h : Settled c v s)
    (hbulk : effVbs c v s.reversed ≤ 0) (hr : s.reversed = false) :
    let o := c.E s.vgs s.vds s.vbs
    s.iDB v = o.isub - 2 * (s.vds * o.gbd + s.vgs * o.gbg + s.vbs * o.gbb) := by
  obtain ⟨a, _⟩ := settled_sub c v s h
  obtain ⟨_, hvd, hvg, hvb, _⟩ := h
  rw [min_eq_left hbulk] at hvb
  obtain ⟨x, _⟩ := a hr
  simp only
  rw [x, hf]
  simp only [hr, effVds, effVgs, effVbs, hp, Bool.false_eq_true, if_false, if_true] at hvd hvg hvb ⊢
  generalize c.E s.vgs s.vds s.vbs = o
  rw [hvd, hvg, hvb]
  ring

/-- ... and for level 7 (d_mos7.model:1440): the direction is mistaken.  None flows from the drain, and the source gets the slopes
without the current. -/
theorem sub_7 (c : Cfg) (hf : c.subFwd = false) (hp : c.pol = 1) (v : Nodes) (s : St) (h : Settled c v s)
    (hbulk : effVbs c v s.reversed ≤ 0) (hr : s.reversed = false) :
    let o := c.E s.vgs s.vds s.vbs
    s.iDB v = 0 ∧ s.iSB v = -(s.vds * o.gbd) + (s.vgs - s.vds) * o.gbg + (s.vbs - s.vds) * o.gbb := by
  obtain ⟨a, _⟩ := settled_sub c v s h
  obtain ⟨_, hvd, hvg, hvb, _⟩ := h
  rw [min_eq_left hbulk] at hvb
  obtain ⟨x, y⟩ := a hr
  simp only
  rw [x, y, hf]
  simp only [hr, effVds, effVgs, effVbs, hp, one_mul, Bool.false_eq_true, if_false] at hvd hvg hvb ⊢
  generalize c.E s.vgs s.vds s.vbs = o
  rw [hvd, hvg, hvb]
  exact ⟨trivial, by ring⟩

/-- a device with a substrate current of `vds²` -/
noncomputable def subE (_ vds _ : ℝ) : Out := { ids := 0, gds := 0, gm := 0, gmb := 0, von := 0, vgst := 0, vdsat := 0, isub := vds ^ 2, gbd := 2 * vds }

/-- at 3 volts 9 flow from the drain, level 8 -/
example (s : St) : ∃ N, ((St.doTr ⟨subE, 1, false, false, true⟩ false ⟨3, 1, 0, 0⟩)^[N] s).iDB ⟨3, 1, 0, 0⟩ = 9 := by
  obtain ⟨N, hN⟩ := settles ⟨subE, 1, false, false, true⟩ ⟨3, 1, 0, 0⟩ (fun _ => 0) (fun _ _ _ => rfl) s
  refine ⟨N, ?_⟩
  have h := hN N le_rfl
  generalize (St.doTr ⟨subE, 1, false, false, true⟩ false ⟨3, 1, 0, 0⟩)^[N] s = t at h
  have hr : t.reversed = false := by
    cases hr : t.reversed
    · rfl
    · have := h.1
      rw [hr] at this
      norm_num [effVds] at this
  rw [((sub_n ⟨subE, 1, false, false, true⟩ rfl rfl _ t h (by rw [hr]; norm_num [effVbs])).1 hr).1]
  obtain ⟨_, hvd, _⟩ := h
  rw [hr] at hvd
  norm_num [effVds] at hvd
  norm_num [subE, hvd]

/-- at -3 volts 27 flow into the drain of a p channel device, not 9 -/
theorem sub_p_witness (s : St) : ∃ N, ((St.doTr ⟨subE, -1, false, false, true⟩ false ⟨-3, -1, 0, 0⟩)^[N] s).iDB ⟨-3, -1, 0, 0⟩ = -27 := by
  obtain ⟨N, hN⟩ := settles ⟨subE, -1, false, false, true⟩ ⟨-3, -1, 0, 0⟩ (fun _ => 0) (fun _ _ _ => rfl) s
  refine ⟨N, ?_⟩
  have h := hN N le_rfl
  generalize (St.doTr ⟨subE, -1, false, false, true⟩ false ⟨-3, -1, 0, 0⟩)^[N] s = t at h
  have hr : t.reversed = false := by
    cases hr : t.reversed
    · rfl
    · have := h.1
      rw [hr] at this
      norm_num [effVds] at this
  rw [sub_p ⟨subE, -1, false, false, true⟩ rfl rfl _ t h (by rw [hr]; norm_num [effVbs]) hr]
  obtain ⟨_, hvd, hvg, hvb, _⟩ := h
  rw [hr] at hvd hvg hvb
  norm_num [effVds, effVgs, effVbs] at hvd hvg hvb
  norm_num [subE, hvd, hvg, hvb]

/-! ## terminal currents reported -/

/-- Specification: what flows into each terminal: channel, gate capacitors, junctions (conducting from bulk to drain or source in an
n channel device, the other way in a p channel one) -/
def intoD (pol : ℝ) (a : Amps) : ℝ := a.ids - a.cgd - pol * a.ddb
def intoS (pol : ℝ) (a : Amps) : ℝ := -a.ids - a.cgs - pol * a.dsb
def intoG (a : Amps) : ℝ := a.cgs + a.cgd + a.cgb
def intoB (pol : ℝ) (a : Amps) : ℝ := pol * a.ddb + pol * a.dsb - a.cgb

theorem into_sum (pol : ℝ) (a : Amps) : intoD pol a + intoS pol a + intoG a + intoB pol a = 0 := by
  unfold intoD intoS intoG intoB; ring

/-- drain, source and gate are reported right -/
theorem probe_dsg (pol : ℝ) (a : Amps) : probeId pol a = intoD pol a ∧ probeIs pol a = intoS pol a ∧ probeIg a = intoG a := by
  refine ⟨?_, ?_, rfl⟩
  · unfold probeId intoD; ring
  · unfold probeIs intoS; ring

/-- **... the bulk is not** (d_mos.model:146): the junctions count with the wrong sign, and the terminals do not add up; nor do the
parts of the drain current (d_mos.model:167). -/
theorem probe_bulk_wrong (pol : ℝ) (hp : pol = 1 ∨ pol = -1) (a : Amps) :
    (probeIb pol a = intoB pol a ↔ a.ddb + a.dsb = 0) ∧
    (probeId pol a + probeIs pol a + probeIg a + probeIb pol a = 0 ↔ a.ddb + a.dsb = 0) ∧
    (probeId pol a = a.ids + probeIdstray pol a ↔ a.ddb = 0) := by
  unfold probeIb intoB probeId probeIs probeIg probeIdstray
  rcases hp with rfl | rfl
  · refine ⟨⟨fun h => by linarith, fun h => by linarith⟩, ⟨fun h => by linarith, fun h => by linarith⟩, ⟨fun h => by linarith, fun h => by rw [h]; ring⟩⟩
  · refine ⟨⟨fun h => by linarith, fun h => by linarith⟩, ⟨fun h => by linarith, fun h => by linarith⟩, ⟨fun h => by linarith, fun h => by rw [h]; ring⟩⟩

end Gnucap.Mos
