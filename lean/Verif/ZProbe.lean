import Mathlib.LinearAlgebra.Matrix.Nondegenerate
import Mathlib.Tactic.IntervalCases
import Mathlib.Tactic.NormNum
import Verif.ElemProps

/-! # C60: the impedance probe -/
namespace Gnucap.Elem
open Gnucap.Mat Gnucap.Load

variable {F : Type _} [Field F] [DecidableEq F]

/-- Specification: one ampere from `n2` to `n1` through the source, into the port. -/
def portCurrent (n1 n2 r : ℕ) : F := inc n1 r - inc n2 r

/-- Specification: voltage of a node; ground is 0. -/
def volt (x : ℕ → F) (k : ℕ) : F := if k = 0 then 0 else x k

theorem sum_Icc_fin (n : ℕ) (f : ℕ → F) : ∑ c ∈ Finset.Icc 1 n, f c = ∑ j : Fin n, f (j.val + 1) := by
  have : Finset.Icc 1 n = Finset.Ico 1 (n + 1) := by ext x; simp only [Finset.mem_Icc, Finset.mem_Ico]; omega
  rw [this, Finset.sum_Ico_eq_sum_range, Finset.sum_range]
  apply Finset.sum_congr (by rfl)
  intro j _
  rw [add_comm]

/-- a matrix with non-zero determinant has one solution -/
theorem solves_unique (n : ℕ) (low : ℕ → ℕ) (a : Arr F) (hdet : (leading low a n).det ≠ 0) (x y b : ℕ → F)
    (hx : Solves n (sget low a) x b) (hy : Solves n (sget low a) y b) (k : ℕ) (h1 : 1 ≤ k) (h2 : k ≤ n) : x k = y k := by
  have hz : (leading low a n).mulVec (fun j => x (j.val + 1) - y (j.val + 1)) = 0 := by
    funext i
    have e1 := hx (i.val + 1) (by omega) (by omega)
    have e2 := hy (i.val + 1) (by omega) (by omega)
    rw [sum_Icc_fin n (fun c => sget low a (i.val + 1) c * x c)] at e1
    rw [sum_Icc_fin n (fun c => sget low a (i.val + 1) c * y c)] at e2
    simp only [Matrix.mulVec, dotProduct, leading, Matrix.of_apply, mul_sub, Finset.sum_sub_distrib, e1, e2, sub_self,
      Pi.zero_apply]
  have := congrFun (Matrix.eq_zero_of_mulVec_eq_zero hdet hz) ⟨k - 1, by omega⟩
  simp only [Pi.zero_apply] at this
  rw [show k - 1 + 1 = k from by omega] at this
  exact sub_eq_zero.1 this

/-- the vector `port_impedance` builds is the port current -/
theorem zapit_eq (n1 n2 r : ℕ) (hne : n1 ≠ n2) :
    (let zapit : ℕ → F := fun _ => 0
     let zapit := if n1 ≠ 0 then vset zapit n1 1 else zapit
     if n2 ≠ 0 then vset zapit n2 (-1) else zapit) r = portCurrent n1 n2 r := by
  simp only [portCurrent, inc]
  by_cases h1 : n1 = 0 <;> by_cases h2 : n2 = 0 <;> by_cases e1 : r = n1 <;> by_cases e2 : r = n2 <;>
    simp_all [vset]

/-- `sum_c inc p c * x c` is the voltage of `p` -/
theorem sum_inc (n p : ℕ) (hp : p ≤ n) (x : ℕ → F) : ∑ c ∈ Finset.Icc 1 n, inc p c * x c = volt x p := by
  unfold volt inc
  by_cases h : p = 0
  · simp [h]
  · rw [if_neg h, Finset.sum_eq_single p]
    · simp [h]
    · intro b _ hb; simp [hb]
    · intro hb; exact absurd (Finset.mem_Icc.2 ⟨by omega, hp⟩) hb

/-- C60: let the matrix contain, among everything else, an admittance `y` between the nodes `n1` and `n2`, and let its
leading minors be non-zero so that it was factored without touching a pivot.  Then for the circuit *without* that
admittance (`A'`): if one ampere through the port produces the voltages `x`, the probe reports the port voltage, unless that
is exactly 0. -/
theorem portImpedance_spec (n : ℕ) (low : ℕ → ℕ) (wf : WF n low) (minp : F) (a lu : Arr F)
    (heq : ∀ m, 1 ≤ m → m ≤ n → EqAt low minp a lu m)
    (hdet : ∀ k, 1 ≤ k → k ≤ n → (leading low a k).det ≠ 0)
    (n1 n2 : ℕ) (h1 : n1 ≤ n) (h2 : n2 ≤ n) (hne : n1 ≠ n2) (y : F) (A' : ℕ → ℕ → F)
    (hA : ∀ r c, sget low a r c = A' r c + y * ((inc n1 r - inc n2 r) * (inc n1 c - inc n2 c)))
    (x : ℕ → F) (hx : Solves n A' x (portCurrent n1 n2)) (hv : volt x n1 - volt x n2 ≠ 0) :
    portImpedance n low lu n1 n2 y = volt x n1 - volt x n2 := by
  have hn : 1 ≤ n := by omega
  have hpv := pivots_of_minors n low minp a lu wf heq hdet
  have hp : ∀ m, 1 ≤ m → m ≤ n → lu m m ≠ 0 := by
    intro m h1 h2
    rw [(heq m h1 h2).diag, pivot, if_neg (hpv m h1 h2)]; exact hpv m h1 h2
  set zap : ℕ → F := (let zapit : ℕ → F := fun _ => 0
     let zapit := if n1 ≠ 0 then vset zapit n1 1 else zapit
     if n2 ≠ 0 then vset zapit n2 (-1) else zapit) with hzap
  have hzr : ∀ r, zap r = portCurrent n1 n2 r := fun r => zapit_eq n1 n2 r hne
  set z := fbsub n low lu zap with hz
  -- z solves A z = port current
  have hsol : Solves n (sget low a) z (portCurrent n1 n2) := by
    intro r h3 h4
    have := solve_of_triangular n _ minp a lu wf heq hp zap _ _
      (fwdSub_spec n low lu zap wf).1 (backSub_spec n low lu (fwdSub n low lu zap) wf).1 r h3 h4
    rw [← hzr r, ← this]
    apply Finset.sum_congr rfl
    intro c _
    rw [pivotFix, if_neg (hpv r h3 h4)]; simp [hz, fbsub]
  have hz0 : z 0 = 0 := by
    rw [hz, fbsub, (backSub_spec n low lu _ wf).2 0 (Or.inl rfl), (fwdSub_spec n low lu _ wf).2 0 (Or.inl rfl), hzr 0]
    have h0 : ∀ k : ℕ, (inc k 0 : F) = 0 := by
      intro k; unfold inc; rw [if_neg]; rintro ⟨a, b⟩; exact a b.symm
    rw [portCurrent, h0, h0, sub_zero]
  have hzv : ∀ k, volt z k = z k := by
    intro k; unfold volt; split
    · rename_i h; rw [h, hz0]
    · rfl
  -- x solves A x = (1 + y v) port current
  set v := volt x n1 - volt x n2 with hvdef
  have hAx : Solves n (sget low a) x (fun r => (1 + y * v) * portCurrent n1 n2 r) := by
    intro r h3 h4
    have : ∀ c ∈ Finset.Icc 1 n, sget low a r c * x c =
        A' r c * x c + y * portCurrent n1 n2 r * (inc n1 c * x c - inc n2 c * x c) := by
      intro c _; rw [hA]; unfold portCurrent; ring
    rw [Finset.sum_congr rfl this, Finset.sum_add_distrib, hx r h3 h4, ← Finset.mul_sum, Finset.sum_sub_distrib,
      sum_inc n n1 h1, sum_inc n n2 h2]
    ring
  have hAz : Solves n (sget low a) (fun k => (1 + y * v) * z k) (fun r => (1 + y * v) * portCurrent n1 n2 r) := by
    intro r h3 h4
    have : ∀ c ∈ Finset.Icc 1 n, sget low a r c * ((1 + y * v) * z c) = (1 + y * v) * (sget low a r c * z c) := by
      intro c _; ring
    rw [Finset.sum_congr rfl this, ← Finset.mul_sum, hsol r h3 h4]
  have huni := solves_unique n low a (hdet n hn (le_refl _)) _ _ _ hAx hAz
  have hvolt : ∀ k, k ≤ n → volt x k = (1 + y * v) * z k := by
    intro k hk
    by_cases h : k = 0
    · subst h; simp [volt, hz0]
    · rw [volt, if_neg h, huni k (by omega) hk]
  have hraw : v = (1 + y * v) * (z n1 - z n2) := by
    rw [mul_sub, ← hvolt n1 h1, ← hvolt n2 h2]
  have hr0 : z n1 - z n2 ≠ 0 := by
    intro h; rw [h, mul_zero] at hraw; exact hv hraw
  have hres : portImpedance n low lu n1 n2 y =
      if y ≠ 0 then 1 / (1 / (z n1 - z n2) - y) else z n1 - z n2 := rfl
  rw [hres]
  by_cases hy : y = 0
  · rw [if_neg (by simpa using hy)]
    rw [hy] at hraw
    simpa using hraw.symm
  · rw [if_pos hy]
    set w := z n1 - z n2
    have hk : 1 / w - y = 1 / v := by
      rw [div_sub' hr0, div_eq_div_iff hr0 hv]
      rw [hraw] at hv
      linear_combination hraw
    rw [hk, one_div_one_div]

/-- The same in the AC analysis: the circuit's loads are `L1`, the element's own admittance, `L2`; the probe after
`AC::solve` reports the port voltage per ampere in the circuit that has only `L1` and `L2`. -/
theorem ac_port_impedance (n : ℕ) (ckt : List Card) (minp : F) (L1 L2 : List (Kind × F)) (n1 n2 : ℕ) (y : F)
    (hl : ∀ kd ∈ L1 ++ (.passive n1 n2, y) :: L2, kd.1 ∈ ckt.flatMap Card.acLoads) (m : Loaded F)
    (h1 : n1 ≤ n) (h2 : n2 ≤ n) (hne : n1 ≠ n2)
    (hdet : ∀ k, 1 ≤ k → k ≤ n → (Matrix.of fun i j : Fin k =>
      acM (L1 ++ (.passive n1 n2, y) :: L2) (i.val + 1) (j.val + 1)).det ≠ 0)
    (x : ℕ → F) (hx : Solves n (acM (L1 ++ L2)) x (portCurrent n1 n2)) (hv : volt x n1 - volt x n2 ≠ 0) :
    let low := iwantAll (ckt.flatMap Card.acWants)
    portImpedance n low (acSolve n low minp (L1 ++ (.passive n1 n2, y) :: L2) m).2.a n1 n2 y =
      volt x n1 - volt x n2 := by
  intro low
  set loads := L1 ++ (Kind.passive n1 n2, y) :: L2 with hloads
  set s := loads.foldl (fun (s : Loaded F × (ℕ → F)) kd => stamp kd.1 kd.2 s.1 s.2)
    ((clearWith n 0 m, fun _ => 0) : Loaded F × (ℕ → F)) with hs
  have hsa : ∀ r c, s.1.a r c = acM loads r c := by
    intro r c
    rw [(ac_loaded loads _ r c).1]
    simp [clearWith]
  have hok : ∀ kd ∈ loads, KindOK (ckt.flatMap Card.acWants) kd.1 := by
    intro kd hkd
    have := card_ac (.sub ckt) kd.1 (by simpa [Card.acLoads] using hl kd hkd)
    simpa only [Card.acWants] using this
  have hsg : ∀ r c, sget low s.1.a r c = acM loads r c := by
    intro r c
    rw [sget_spec _ (fun k => (iwantAll_spec _ k).1)]
    by_cases hlow : low (max r c) ≤ min r c
    · rw [if_pos hlow, hsa]
    · rw [if_neg hlow]
      symm
      unfold acM
      apply List.sum_eq_zero
      intro w hw
      rw [List.mem_map] at hw
      obtain ⟨kd, hkd, rfl⟩ := hw
      rw [coefM_profile _ kd.1 (hok kd hkd) r c hlow, mul_zero]
  have wf := iwantAll_wf n (ckt.flatMap Card.acWants)
  refine portImpedance_spec n low wf minp s.1.a _ (luInplace_spec n low minp s.1.a wf) ?_ n1 n2 h1 h2 hne y
    (acM (L1 ++ L2)) ?_ x hx hv
  · intro k hk1 hk2
    have : leading low s.1.a k = Matrix.of fun i j : Fin k => acM loads (i.val + 1) (j.val + 1) := by
      ext i j; simp only [leading, Matrix.of_apply, hsg]
    rw [this]
    exact hdet k hk1 hk2
  · intro r c
    rw [hsg, hloads]
    simp only [acM, List.map_append, List.map_cons, List.sum_append, List.sum_cons, coefM]
    ring

/-- What the probe takes out is what an element with its conductance across its own output put in: its slope and its shunt
(`tr_load_passive`, `tr_load_shunt`, `ac_load_passive`, `ac_load_shunt`; e_elemnt.h:223-300) add the same to every place of
the matrix as one admittance of the value the probe uses, in DC and transient, and in AC. -/
theorem z_parallel_own (L1 L2 : List (Kind × F)) (n1 n2 : ℕ) (mf c1 loss0 : F) (r c : ℕ) :
    acM (L1 ++ (.passive n1 n2, mf * c1) :: (.passive n1 n2, mf * loss0) :: L2) r c =
      acM (L1 ++ (.passive n1 n2, zParallel mf c1 loss0) :: L2) r c ∧
    acM (L1 ++ (.passive n1 n2, mf * c1) :: (.passive n1 n2, mf * loss0) :: L2) r c =
      acM (L1 ++ (.passive n1 n2, zParallelAc mf c1 loss0 false) :: L2) r c ∧
    acM (L1 ++ (.passive n1 n2, mf * loss0) :: L2) r c =
      acM (L1 ++ (.passive n1 n2, zParallelAc mf c1 loss0 true) :: L2) r c := by
  refine ⟨?_, ?_, ?_⟩ <;>
    · simp only [acM, List.map_append, List.map_cons, List.sum_append, List.sum_cons, coefM, zParallel, zParallelAc,
        if_true, Bool.false_eq_true, if_false]
      try ring

/-! ## the hypotheses are met; where the probe is wrong -/

/-- two resistors in series from node 1 over node 2 to ground; the upper one is probed -/
def zCkt : List Card := [.dev (.resistor 1 2), .dev (.resistor 2 0), .dev (.resistor 1 0)]

example : ∃ (x : ℕ → ℚ), Solves 2 (acM ([(Kind.passive 2 0, 4)] ++ [(Kind.passive 1 0, 4)])) x (portCurrent 1 2) ∧
    volt x 1 - volt x 2 ≠ 0 ∧
    (∀ kd ∈ [(Kind.passive 2 0, (4 : ℚ))] ++ (.passive 1 2, 3) :: [(.passive 1 0, 4)],
      kd.1 ∈ zCkt.flatMap Card.acLoads) ∧
    portImpedance 2 (iwantAll (zCkt.flatMap Card.acWants))
      (acSolve 2 (iwantAll (zCkt.flatMap Card.acWants)) 0 ([(Kind.passive 2 0, (4 : ℚ))] ++ (.passive 1 2, 3) ::
        [(.passive 1 0, 4)]) ⟨fun _ _ => 7, fun _ => true⟩).2.a 1 2 3 = 1 / 2 := by
  refine ⟨fun k => if k = 1 then 1 / 4 else -1 / 4, ?_, by norm_num [volt], by
    simp [zCkt, Card.acLoads, Dev.acLoads], ?_⟩
  · intro r h1 h2
    interval_cases r <;> norm_num [acM, coefM, inc, portCurrent, Finset.sum_Icc_succ_top]
  · simp only [zCkt, List.flatMap_cons, List.flatMap_nil, Card.acWants]
    decide +kernel

/-- The probe is wrong for an element whose conductance is not across its own output: a transconductance of 1/2 controlled
by node 2 at node 1, one mho at each node.  One ampere into node 1 gives 1 V there, with the element and without it; the
probe reports 2. -/
theorem vccs_impedance_wrong :
    let ckt : List Card := [.dev (.resistor 1 0), .dev (.resistor 2 0), .dev (.vccs 1 0 2 0)]
    let loads : List (Kind × ℚ) := [(.passive 1 0, 1), (.passive 2 0, 1), (.active 1 0 2 0, 1 / 2)]
    let low := iwantAll (ckt.flatMap Card.acWants)
    let x : ℕ → ℚ := fun k => if k = 1 then 1 else 0
    (∀ kd ∈ loads, kd.1 ∈ ckt.flatMap Card.acLoads) ∧
    Solves 2 (acM loads) x (portCurrent 1 0) ∧ Solves 2 (acM (loads.take 2)) x (portCurrent 1 0) ∧
    portImpedance 2 low (acSolve 2 low 0 loads ⟨fun _ _ => 0, fun _ => true⟩).2.a 1 0
      (zParallelAc 1 (1 / 2) 0 false) = 2 := by
  intro ckt loads low x
  refine ⟨by simp [ckt, loads, Card.acLoads, Dev.acLoads], ?_, ?_, ?_⟩
  · intro r h1 h2
    interval_cases r <;> norm_num [acM, coefM, inc, portCurrent, Finset.sum_Icc_succ_top, loads, x]
  · intro r h1 h2
    interval_cases r <;> norm_num [acM, coefM, inc, portCurrent, Finset.sum_Icc_succ_top, loads, x]
  · simp only [low, ckt, loads, List.flatMap_cons, List.flatMap_nil, Card.acWants]
    decide +kernel

end Gnucap.Elem
