import Verif.PolyGModel
import Mathlib.Algebra.BigOperators.Ring.Finset
import Mathlib.Tactic.Ring
import Mathlib.Tactic.Linarith
import Mathlib.Tactic.NormNum
import Mathlib.Tactic.LinearCombination

/-!
# C106: what an element with many ports loads is what was evaluated
-/
namespace Gnucap.PolyG.Props
open Finset Gnucap.PolyG

variable {F : Type _} [Field F] [LinearOrder F]

/-! ## Specification -/

/-- the current that flows into the first node by the equations: the source and every port -/
def flow (n : ℕ) (ld u : ℕ → F) : F := ld 0 + ∑ i ∈ Icc 1 n, ld i * u i

/-- what the matrix should hold of `mf` devices after a pass, given what it held of them before -/
def goal (h : How F) (mf before v : F) : F := if h.first then mf * v else (1 - h.damp) * before + h.damp * (mf * v)

/-- the amounts in the matrix are those of the values kept -/
structure Synced (mf : F) (x : D F) : Prop where
  src : x.ld 0 = mf * x.d0
  one : x.ld 1 = mf * x.d1
  more : ∀ i, 2 ≤ i → i ≤ x.n → x.ld i = mf * x.old i

omit [LinearOrder F] in
theorem new_synced (mf : F) (n : ℕ) : Synced mf (D.new n : D F) := ⟨by simp [D.new], by simp [D.new], by simp [D.new]⟩

omit [LinearOrder F] in
theorem amount_law (h : How F) (a b l : F) (hl : l = h.mf * b) : (if h.inc then l else 0) + h.amount a b = h.mf * h.next a b := by
  rw [How.amount, How.next]
  cases h.inc <;> cases h.first <;> simp [hl] <;> ring

omit [LinearOrder F] in
/-- a load after clearing brings the matrix to the values kept -/
theorem load_synced (h : How F) (x : D F) (hx : Synced h.mf x) (v : ℕ → F) (c0 c1 : F) (t : Option F) :
    Synced h.mf (({ x.clear h with val := v, c0 := c0, c1 := c1, time := t } : D F).load h) := by
  have e : ∀ i, (x.clear h).ld i = if h.inc then x.ld i else 0 := by
    intro i; rw [D.clear]; cases h.inc <;> rfl
  have en : (x.clear h).n = x.n ∧ (x.clear h).old = x.old ∧ (x.clear h).d0 = x.d0 ∧ (x.clear h).d1 = x.d1 := by
    rw [D.clear]; cases h.inc <;> exact ⟨rfl, rfl, rfl, rfl⟩
  obtain ⟨e1, e2, e3, e4⟩ := en
  refine ⟨?_, ?_, fun i h2 hn => ?_⟩
  · simp only [D.load, e, e3, if_true]
    exact amount_law h _ _ _ hx.src
  · simp only [D.load, e, e4, if_true, one_ne_zero, if_false]
    exact amount_law h _ _ _ hx.one
  · have hn' : i ≤ x.n := by simpa [D.load, e1] using hn
    have a0 : i ≠ 0 := by omega
    have a1 : i ≠ 1 := by omega
    have a2 : ¬ i ≤ 1 := by omega
    simp only [D.load, e, e1, e2, a0, a1, a2, hn', if_true, if_false]
    exact amount_law h _ _ _ (hx.more i h2 hn')

/-- what is evaluated before loading -/
def evald (atol rtol : F) (x : D F) (p : Pass F) : D F :=
  match p.ev with
  | none => x.clear p.how
  | some (t, v) => ((x.clear p.how).doTr atol rtol t v).1

theorem pass_eq (atol rtol : F) (x : D F) (p : Pass F) :
    x.pass atol rtol p = if p.loaded || !p.how.inc then (evald atol rtol x p).load p.how else evald atol rtol x p := by
  unfold D.pass evald
  cases p.ev <;> rfl

theorem run_snoc (atol rtol : F) (x : D F) (l : List (Pass F)) (p : Pass F) : x.run atol rtol (l ++ [p]) = (x.run atol rtol l).pass atol rtol p := by
  simp only [D.run, List.foldl_append, List.foldl_cons, List.foldl_nil]

theorem pass_n (atol rtol : F) (x : D F) (p : Pass F) : (x.pass atol rtol p).n = x.n := by
  have : (evald atol rtol x p).n = x.n := by
    rw [evald, D.clear]
    cases p.ev <;> cases p.how.inc <;> rfl
  rw [pass_eq]
  split_ifs <;> exact this

theorem pass_synced (atol rtol mf : F) (x : D F) (p : Pass F) (hx : Synced mf x) (hp : p.how.mf = mf) : Synced mf (x.pass atol rtol p) := by
  subst hp
  rw [pass_eq]
  split_ifs with hl
  · rw [evald]
    cases he : p.ev with
    | none => exact load_synced p.how x hx (x.clear p.how).val (x.clear p.how).c0 (x.clear p.how).c1 (x.clear p.how).time
    | some tv => exact load_synced p.how x hx tv.2 (tv.2 0) (tv.2 1) (some tv.1)
  · have hi : p.how.inc = true := by
      simp only [Bool.or_eq_true, Bool.not_eq_true', not_or, Bool.not_eq_true, Bool.not_eq_false] at hl
      exact hl.2
    rw [evald, D.clear, hi]
    cases p.ev with
    | none => exact hx
    | some tv => exact ⟨hx.src, hx.one, hx.more⟩

/-- **C106, invariant**: after any passes, damped or not, incremental or not, evaluated or bypassed, the matrix holds what the element
remembers to have loaded. -/
theorem synced (atol rtol mf : F) (n : ℕ) (l : List (Pass F)) (hl : ∀ p ∈ l, p.how.mf = mf) :
    Synced mf ((D.new n : D F).run atol rtol l) ∧ ((D.new n : D F).run atol rtol l).n = n := by
  have : ∀ (l : List (Pass F)) (x : D F), (∀ p ∈ l, p.how.mf = mf) → Synced mf x →
      Synced mf (l.foldl (D.pass atol rtol) x) ∧ (l.foldl (D.pass atol rtol) x).n = x.n := by
    intro l
    induction l with
    | nil => intro x _ h; exact ⟨h, rfl⟩
    | cons p l ih =>
      intro x hl h
      have := ih (x.pass atol rtol p) (fun q hq => hl q (List.mem_cons_of_mem _ hq)) (pass_synced atol rtol mf x p h (hl p (by simp)))
      rw [List.foldl_cons]
      exact ⟨this.1, this.2.trans (pass_n _ _ _ _)⟩
  exact this l _ hl (new_synced mf n)

omit [LinearOrder F] in
/-- one amount -/
theorem goal_law (h : How F) (a b l : F) (hl : l = h.mf * b) : (if h.inc then l else 0) + h.amount a b = goal h h.mf l a := by
  rw [amount_law h a b l hl, How.next, goal]
  split_ifs
  · rfl
  · rw [hl]; ring

/-- **C106, loading**: after any passes, a pass that evaluates and loads brings every amount to what the evaluation says, the whole way in the
first iteration, else the part of the way that damping leaves; it is the same whether only differences are loaded or all. -/
theorem load_law (atol rtol mf : F) (n : ℕ) (l : List (Pass F)) (hl : ∀ p ∈ l, p.how.mf = mf) (h : How F) (hm : h.mf = mf) (t : F) (v : ℕ → F)
    (i : ℕ) (hi : i ≤ n) :
    ((D.new n : D F).run atol rtol (l ++ [⟨h, some (t, v), true⟩])).ld i = goal h mf (((D.new n : D F).run atol rtol l).ld i) (v i) := by
  subst hm
  obtain ⟨hs, hn⟩ := synced atol rtol h.mf n l hl
  rw [run_snoc]
  set x := (D.new n : D F).run atol rtol l with hx
  rw [pass_eq]
  simp only [Bool.true_or, if_true, evald, D.doTr]
  have e : ∀ i, (x.clear h).ld i = if h.inc then x.ld i else 0 := by
    intro i; rw [D.clear]; cases h.inc <;> rfl
  have en : (x.clear h).n = x.n ∧ (x.clear h).old = x.old ∧ (x.clear h).d0 = x.d0 ∧ (x.clear h).d1 = x.d1 := by
    rw [D.clear]; cases h.inc <;> exact ⟨rfl, rfl, rfl, rfl⟩
  obtain ⟨e1, e2, e3, e4⟩ := en
  rw [← hn] at hi
  rcases i with _ | _ | i
  · simp only [D.load, e, e3, if_true]
    exact goal_law h _ _ _ hs.src
  · simp only [D.load, e, e4, if_true, Nat.zero_add, one_ne_zero, if_false]
    exact goal_law h _ _ _ hs.one
  · simp only [D.load, e, e1, e2, hi, if_true, if_false, Nat.add_eq_right, Nat.add_one_ne_zero]
    exact goal_law h _ _ _ (hs.more (i + 2) (by omega) hi)

/-- **C106, modes**: incremental loading and full loading give the same matrix, whatever came before. -/
theorem modes_agree (atol rtol mf damp : F) (first : Bool) (n : ℕ) (l : List (Pass F)) (hl : ∀ p ∈ l, p.how.mf = mf) (t : F) (v : ℕ → F) (i : ℕ)
    (hi : i ≤ n) :
    ((D.new n : D F).run atol rtol (l ++ [⟨⟨true, first, damp, mf⟩, some (t, v), true⟩])).ld i =
      ((D.new n : D F).run atol rtol (l ++ [⟨⟨false, first, damp, mf⟩, some (t, v), true⟩])).ld i := by
  rw [load_law atol rtol mf n l hl _ rfl t v i hi, load_law atol rtol mf n l hl _ rfl t v i hi]
  rfl

/-- **C106, undamped**: without damping the matrix holds exactly what was evaluated last, and the current probed is the one of the equations. -/
theorem amps_partial (atol rtol mf : F) (n : ℕ) (hn : 1 ≤ n) (l : List (Pass F)) (hl : ∀ p ∈ l, p.how.mf = mf) (h : How F) (hm : h.mf = mf)
    (hd : h.first = true ∨ h.damp = 1) (t : F) (v u : ℕ → F) :
    (∀ i ≤ n, ((D.new n : D F).run atol rtol (l ++ [⟨h, some (t, v), true⟩])).ld i = mf * v i) ∧
    mf * ((D.new n : D F).run atol rtol (l ++ [⟨h, some (t, v), true⟩])).amps u =
      flow n ((D.new n : D F).run atol rtol (l ++ [⟨h, some (t, v), true⟩])).ld u := by
  have hld : ∀ i ≤ n, ((D.new n : D F).run atol rtol (l ++ [⟨h, some (t, v), true⟩])).ld i = mf * v i := by
    intro i hi
    rw [load_law atol rtol mf n l hl h hm t v i hi, goal]
    rcases hd with hd | hd
    · rw [hd]; rfl
    · rw [hd]; split_ifs
      · rfl
      · ring
  refine ⟨hld, ?_⟩
  have hnext : ∀ a b : F, h.next a b = a := by
    intro a b
    rw [How.next]
    rcases hd with hd | hd
    · rw [hd]; rfl
    · rw [hd]; split_ifs
      · rfl
      · ring
  have hx := (synced atol rtol mf n l hl).2
  have hr : (D.new n : D F).run atol rtol (l ++ [⟨h, some (t, v), true⟩]) =
      (((((D.new n : D F).run atol rtol l).clear h).doTr atol rtol t v).1).load h := by
    rw [run_snoc, pass_eq]; simp [evald]
  have hcn : ((((D.new n : D F).run atol rtol l).clear h)).n = n := by
    rw [D.clear]; cases h.inc <;> exact hx
  have hc0 : ((D.new n : D F).run atol rtol (l ++ [⟨h, some (t, v), true⟩])).c0 = v 0 := by
    rw [hr]; simp only [D.load, D.doTr, hnext]
  have hval : ∀ i, ((D.new n : D F).run atol rtol (l ++ [⟨h, some (t, v), true⟩])).val i = v i := by
    intro i
    rw [hr]; simp only [D.load, D.doTr, hnext, ite_self]
  have hnn : ((D.new n : D F).run atol rtol (l ++ [⟨h, some (t, v), true⟩])).n = n := by
    rw [hr]; simp only [D.load, D.doTr]; exact hcn
  rw [D.amps, flow, hnn, hc0, mul_add, mul_sum, hld 0 (by omega)]
  congr 1
  refine sum_congr rfl fun i hi => ?_
  rw [hld i (mem_Icc.1 hi).2, hval]
  ring

/-- **C106, damped**: the current probed after a load misses that of the equations by what damping holds back at the first port. -/
theorem amps_error (atol rtol mf : F) (n : ℕ) (hn : 1 ≤ n) (l : List (Pass F)) (hl : ∀ p ∈ l, p.how.mf = mf) (h : How F) (hm : h.mf = mf)
    (t : F) (v u : ℕ → F) :
    mf * ((D.new n : D F).run atol rtol (l ++ [⟨h, some (t, v), true⟩])).amps u =
      flow n ((D.new n : D F).run atol rtol (l ++ [⟨h, some (t, v), true⟩])).ld u +
        (mf * v 1 - ((D.new n : D F).run atol rtol (l ++ [⟨h, some (t, v), true⟩])).ld 1) * u 1 := by
  subst hm
  have hs := (synced atol rtol h.mf n (l ++ [⟨h, some (t, v), true⟩]) (by
    intro p hp
    rcases List.mem_append.1 hp with hp | hp
    · exact hl p hp
    · rw [List.mem_singleton.1 hp])).1
  have hx := (synced atol rtol h.mf n l hl).2
  have hr : (D.new n : D F).run atol rtol (l ++ [⟨h, some (t, v), true⟩]) =
      (((((D.new n : D F).run atol rtol l).clear h).doTr atol rtol t v).1).load h := by
    rw [run_snoc, pass_eq]; simp [evald]
  have hcn : ((((D.new n : D F).run atol rtol l).clear h)).n = n := by
    rw [D.clear]; cases h.inc <;> exact hx
  set y := (D.new n : D F).run atol rtol (l ++ [⟨h, some (t, v), true⟩]) with hy
  have hnn : y.n = n := by rw [hr]; simp only [D.load, D.doTr]; exact hcn
  have hc : y.c0 = y.d0 := by rw [hr]; rfl
  have h1 : y.val 1 = v 1 := by rw [hr]; simp [D.load, D.doTr]
  have hv : ∀ i, 2 ≤ i → i ≤ n → y.val i = y.old i := by
    intro i h2 hi
    have a2 : ¬ i ≤ 1 := by omega
    rw [hr]; simp only [D.load, D.doTr, hcn, h2, hi, a2, and_self, if_true, if_false]
  have hsplit : ∀ f : ℕ → F, ∑ i ∈ Icc 1 n, f i = f 1 + ∑ i ∈ Ioc 1 n, f i := by
    intro f
    rw [Finset.Icc_eq_cons_Ioc hn, sum_cons]
  rw [D.amps, flow, hnn, hsplit, hsplit, hc, h1, hs.src]
  have : h.mf * ∑ i ∈ Ioc 1 n, u i * y.val i = ∑ i ∈ Ioc 1 n, y.ld i * u i := by
    rw [mul_sum]
    refine sum_congr rfl fun i hi => ?_
    obtain ⟨h2, hi⟩ := mem_Ioc.1 hi
    rw [hs.more i h2 (by rw [hnn]; exact hi), hv i h2 hi]
    ring
  rw [← this]
  ring

/-- **C106, approach**: where evaluation gives the same again and again, damped loading comes nearer by a constant factor. -/
theorem approach (atol rtol mf : F) (n : ℕ) (l : List (Pass F)) (hl : ∀ p ∈ l, p.how.mf = mf) (h : How F) (hm : h.mf = mf) (hf : h.first = false)
    (t : F) (v : ℕ → F) (i : ℕ) (hi : i ≤ n) (k : ℕ) :
    ((D.new n : D F).run atol rtol (l ++ List.replicate k ⟨h, some (t, v), true⟩)).ld i - mf * v i =
      (1 - h.damp) ^ k * (((D.new n : D F).run atol rtol l).ld i - mf * v i) := by
  induction k with
  | zero => simp
  | succ k ih =>
    rw [List.replicate_succ', ← List.append_assoc, load_law atol rtol mf n _ (by
      intro p hp
      rcases List.mem_append.1 hp with hp | hp
      · exact hl p hp
      · rw [(List.mem_replicate.1 hp).2]; exact hm) h hm t v i hi, goal, hf]
    simp only [Bool.false_eq_true, if_false]
    rw [pow_succ']
    linear_combination (1 - h.damp) * ih

/-- **C106, convergence** (partial: the load before was not damped; otherwise `early`): the element says it has converged if and only if time
and every amount in the matrix, taken for one device, are near what is evaluated now. -/
theorem converged_partial (atol rtol mf : F) (hmf : mf ≠ 0) (n : ℕ) (hn : 1 ≤ n) (l : List (Pass F)) (hl : ∀ p ∈ l, p.how.mf = mf) (h : How F)
    (hm : h.mf = mf) (hd : h.first = true ∨ h.damp = 1) (t t' : F) (v v' : ℕ → F) :
    (((D.new n : D F).run atol rtol (l ++ [⟨h, some (t, v), true⟩])).doTr atol rtol t' v').2 = true ↔
      |t' - t| ≤ rtol * |t'| + atol ∧ ∀ i ≤ n,
        |v' i - ((D.new n : D F).run atol rtol (l ++ [⟨h, some (t, v), true⟩])).ld i / mf| ≤ rtol * |v' i| + atol := by
  have hld := (amps_partial atol rtol mf n hn l hl h hm hd t v v).1
  have hnext : ∀ a b : F, h.next a b = a := by
    intro a b
    rw [How.next]
    rcases hd with hd | hd
    · rw [hd]; rfl
    · rw [hd]; split_ifs
      · rfl
      · ring
  have hx := (synced atol rtol mf n l hl).2
  have hr : (D.new n : D F).run atol rtol (l ++ [⟨h, some (t, v), true⟩]) =
      (((((D.new n : D F).run atol rtol l).clear h).doTr atol rtol t v).1).load h := by
    rw [run_snoc, pass_eq]; simp [evald]
  have hcn : ((((D.new n : D F).run atol rtol l).clear h)).n = n := by
    rw [D.clear]; cases h.inc <;> exact hx
  set y := (D.new n : D F).run atol rtol (l ++ [⟨h, some (t, v), true⟩]) with hy
  have hnn : y.n = n := by rw [hr]; simp only [D.load, D.doTr]; exact hcn
  have ht : y.time = some t := by rw [hr]; rfl
  have hold : ∀ i ≤ n, y.old i = v i := by
    intro i hi
    rw [hr]; simp only [D.load, D.doTr, hcn, hi, hnext, if_true, ite_self]
  simp only [D.doTr, ht, hnn, Bool.and_eq_true, List.all_eq_true, List.mem_range, conchk, decide_eq_true_eq]
  refine and_congr_right fun _ => forall_congr' fun i => ?_
  constructor
  · intro hh hi
    rw [hld i hi, mul_div_cancel_left₀ _ hmf]
    have := hh (by omega)
    rwa [hold i hi] at this
  · intro hh hi
    have := hh (by omega)
    rw [hld i (by omega), mul_div_cancel_left₀ _ hmf] at this
    rwa [hold i (by omega)]

/-- **C106, unloading** (partial: not damped; otherwise `rest_left`): an element taken out leaves nothing in the matrix, whether differences are
loaded or the matrix was cleared before. -/
theorem unload_partial (atol rtol mf : F) (n : ℕ) (l : List (Pass F)) (hl : ∀ p ∈ l, p.how.mf = mf) (h : How F) (hm : h.mf = mf)
    (hd : h.first = true ∨ h.damp = 1) (i : ℕ) (hi : i ≤ n) :
    ((((D.new n : D F).run atol rtol l).clear h).unload h).ld i = 0 := by
  subst hm
  obtain ⟨hs, hn⟩ := synced atol rtol h.mf n l hl
  set x := (D.new n : D F).run atol rtol l with hx
  have en : (x.clear h).n = x.n := by rw [D.clear]; cases h.inc <;> rfl
  have hsy := load_synced h x hs (fun i => if i ≤ x.n then 0 else (x.clear h).val i) 0 0 (x.clear h).time
  have hu : (x.clear h).unload h =
      ({ x.clear h with val := fun i => if i ≤ x.n then 0 else (x.clear h).val i, c0 := 0, c1 := 0, time := (x.clear h).time } : D F).load h := by
    simp only [D.unload, en]
  rw [hu]
  have hnext : ∀ a b : F, h.next a b = a := by
    intro a b
    rw [How.next]
    rcases hd with hd | hd
    · rw [hd]; rfl
    · rw [hd]; split_ifs
      · rfl
      · ring
  rw [← hn] at hi
  rcases i with _ | _ | i
  · rw [hsy.src]; simp only [D.load, hnext, mul_zero]
  · rw [hsy.one]; simp only [D.load, hnext, mul_zero]
  · rw [hsy.more (i + 2) (by omega) (by simp only [D.load, en]; exact hi)]
    have a2 : ¬ i + 2 ≤ 1 := by omega
    simp only [D.load, hnext, en, hi, a2, if_true, if_false, mul_zero]

/-! ## Examples and failures -/

/-- a pass undamped, and one damped by half -/
def full (v : ℕ → ℚ) : Pass ℚ := ⟨⟨true, true, 1, 2⟩, some (0, v), true⟩

def half (v : ℕ → ℚ) : Pass ℚ := ⟨⟨true, false, 1 / 2, 2⟩, some (0, v), true⟩

example : (∀ p ∈ [full fun _ => 1, half fun _ => 3], p.how.mf = 2) ∧
    ((D.new 2 : D ℚ).run 0 0 [full fun _ => 1, half fun _ => 3]).ld 2 = 4 ∧
    ((D.new 2 : D ℚ).run 0 0 [full fun _ => 1, half fun _ => 3]).ld 1 = 4 := by
  refine ⟨by simp [full, half], by decide +kernel, by decide +kernel⟩

/-- `load_law`, `modes_agree`: differences and all -/
example : ((D.new 2 : D ℚ).run 0 0 ([full fun _ => 1] ++ [⟨⟨false, false, 1 / 2, 2⟩, some (0, fun _ => 3), true⟩])).ld 2 = 4 ∧
    goal (⟨true, false, 1 / 2, 2⟩ : How ℚ) 2 2 3 = 4 := by
  constructor
  · decide +kernel
  · norm_num [goal]

/-- `approach`: three passes leave an eighth of the way -/
example : ((D.new 2 : D ℚ).run 0 0 ([full fun _ => 1] ++ List.replicate 3 (half fun _ => 9))).ld 2 = 18 - 16 / 8 := by decide +kernel

/-- `amps_partial`, `amps_error`: undamped -/
example : ((D.new 2 : D ℚ).run 0 0 ([half fun _ => 1] ++ [full fun i => i + 1])).amps (fun _ => 1) = 6 ∧ (full fun i => i + 1).how.first = true := by
  constructor
  · decide +kernel
  · rfl

/-- `converged_partial`: near, and not near -/
example : (((D.new 2 : D ℚ).run (1 / 10) 0 ([] ++ [full fun _ => 1])).doTr (1 / 10) 0 0 fun _ => 21 / 20).2 = true ∧
    (((D.new 2 : D ℚ).run (1 / 10) 0 ([] ++ [full fun _ => 1])).doTr (1 / 10) 0 0 fun _ => 6 / 5).2 = false := by
  constructor <;> decide +kernel

/-- `unload_partial`: from something to nothing -/
example : ((D.new 2 : D ℚ).run 0 0 [full fun _ => 1]).ld 2 = 2 ∧
    ((((D.new 2 : D ℚ).run 0 0 [full fun _ => 1]).clear ⟨true, false, 1, 2⟩).unload ⟨true, false, 1, 2⟩).ld 2 = 0 := by
  constructor <;> decide +kernel

/-- **C106 fails for the current**: after a damped load the current probed is not that of the equations: the conductance of the first port is
taken before damping, all others after. -/
theorem amps_wrong : ((D.new 2 : D ℚ).run 0 0 [full fun _ => 1, half fun _ => 3]).amps (fun _ => 1) = 7 ∧
    flow 2 ((D.new 2 : D ℚ).run 0 0 [full fun _ => 1, half fun _ => 3]).ld (fun _ => 1) = 2 * 6 := by
  constructor <;> decide +kernel

/-- **C106 fails for convergence**: after a damped load the source and the first port are compared with what was evaluated, not with what was
loaded: with no tolerance at all the element says it has converged, half way. -/
theorem early : (((D.new 1 : D ℚ).run 0 0 [full fun _ => 1, half fun _ => 3]).doTr 0 0 0 fun _ => 3).2 = true ∧
    ((D.new 1 : D ℚ).run 0 0 [full fun _ => 1, half fun _ => 3]).ld 1 = 2 * 2 ∧
    (((D.new 2 : D ℚ).run 0 0 [full fun _ => 1, half fun _ => 3]).doTr 0 0 0 fun _ => 3).2 = false := by
  refine ⟨?_, ?_, ?_⟩ <;> decide +kernel

/-- **C106 fails for unloading**: damped, a part of the element is left in the matrix. -/
theorem rest_left : ((((D.new 2 : D ℚ).run 0 0 [full fun _ => 1]).clear ⟨true, false, 1 / 2, 2⟩).unload ⟨true, false, 1 / 2, 2⟩).ld 1 = 1 ∧
    ((((D.new 2 : D ℚ).run 0 0 [full fun _ => 1]).clear ⟨true, false, 1 / 2, 2⟩).unload ⟨true, false, 1 / 2, 2⟩).ld 2 = 1 := by
  constructor <;> decide +kernel

/-- **C106, start**: an element that has never been evaluated does not say it has converged, whatever is evaluated and however wide the
tolerance. -/
theorem first_no (atol rtol : F) (n : ℕ) (l : List (Pass F)) (hl : ∀ p ∈ l, p.ev = none) (t : F) (v : ℕ → F) :
    (((D.new n : D F).run atol rtol l).doTr atol rtol t v).2 = false := by
  have : ∀ (l : List (Pass F)) (x : D F), (∀ p ∈ l, p.ev = none) → x.time = none → (l.foldl (D.pass atol rtol) x).time = none := by
    intro l
    induction l with
    | nil => intro x _ h; exact h
    | cons p l ih =>
      intro x hl h
      rw [List.foldl_cons]
      refine ih _ (fun q hq => hl q (List.mem_cons_of_mem _ hq)) ?_
      have he : (evald atol rtol x p).time = none := by
        rw [evald, hl p (by simp), D.clear]
        cases p.how.inc <;> exact h
      rw [pass_eq]
      split_ifs <;> exact he
  have ht := this l (D.new n) hl rfl
  rw [← D.run] at ht
  simp only [D.doTr, ht, Bool.false_and]

example : (((D.new 1 : D ℚ).run 1 1 [⟨⟨false, true, 1, 1⟩, none, true⟩]).doTr 1 1 0 fun _ => 0).2 = false := by decide +kernel

/-- **C106, bypass**: where nothing is evaluated, loading again changes nothing, damped or not, whether differences are loaded or all. -/
theorem bypass_keeps (atol rtol mf : F) (n : ℕ) (l : List (Pass F)) (hl : ∀ p ∈ l, p.how.mf = mf) (h : How F) (hm : h.mf = mf) (t : F) (v : ℕ → F)
    (q : Pass F) (hq : q.how.mf = mf) (he : q.ev = none) (i : ℕ) (hi : i ≤ n) :
    ((D.new n : D F).run atol rtol (l ++ [⟨h, some (t, v), true⟩] ++ [q])).ld i = ((D.new n : D F).run atol rtol (l ++ [⟨h, some (t, v), true⟩])).ld i := by
  have hl' : ∀ p ∈ l ++ [⟨h, some (t, v), true⟩], p.how.mf = mf := by
    intro p hp
    rcases List.mem_append.1 hp with hp | hp
    · exact hl p hp
    · rw [List.mem_singleton.1 hp]; exact hm
  obtain ⟨hs, hn⟩ := synced atol rtol mf n _ hl'
  have hr : (D.new n : D F).run atol rtol (l ++ [⟨h, some (t, v), true⟩]) =
      (((((D.new n : D F).run atol rtol l).clear h).doTr atol rtol t v).1).load h := by
    rw [run_snoc, pass_eq]; simp [evald]
  rw [run_snoc]
  generalize hy : (D.new n : D F).run atol rtol (l ++ [⟨h, some (t, v), true⟩]) = y at *
  have h0 : y.c0 = y.d0 := by rw [hr]; rfl
  have h1 : y.c1 = y.d1 := by rw [hr]; rfl
  have hv : ∀ i, 2 ≤ i → i ≤ n → y.val i = y.old i := by
    intro i h2 hi
    have a2 : ¬ i ≤ 1 := by omega
    have hn' : i ≤ ((((D.new n : D F).run atol rtol l).clear h).doTr atol rtol t v).1.n := by
      have : y.n = ((((D.new n : D F).run atol rtol l).clear h).doTr atol rtol t v).1.n := by rw [hr]; rfl
      omega
    rw [hr]; simp only [D.load, h2, hn', a2, and_self, if_true, if_false]
  have hnext : ∀ a : F, q.how.next a a = a := by
    intro a; rw [How.next]; split_ifs
    · rfl
    · ring
  have e : ∀ i, (y.clear q.how).ld i = if q.how.inc then y.ld i else 0 := by
    intro i; rw [D.clear]; cases q.how.inc <;> rfl
  have en : (y.clear q.how).n = y.n ∧ (y.clear q.how).old = y.old ∧ (y.clear q.how).d0 = y.d0 ∧ (y.clear q.how).d1 = y.d1 ∧
      (y.clear q.how).c0 = y.c0 ∧ (y.clear q.how).c1 = y.c1 ∧ (y.clear q.how).val = y.val := by
    rw [D.clear]; cases q.how.inc <;> exact ⟨rfl, rfl, rfl, rfl, rfl, rfl, rfl⟩
  obtain ⟨e1, e2, e3, e4, e5, e6, e7⟩ := en
  have hev : evald atol rtol y q = y.clear q.how := by rw [evald, he]
  rw [pass_eq, hev]
  split_ifs with hld
  · rw [← hn] at hi
    rcases i with _ | _ | i
    · simp only [D.load, e, e3, e5, h0, if_true]
      rw [amount_law q.how _ _ _ (by rw [hq]; exact hs.src), hnext, hq, hs.src]
    · simp only [D.load, e, e4, e6, h1, if_true, Nat.zero_add, one_ne_zero, if_false]
      rw [amount_law q.how _ _ _ (by rw [hq]; exact hs.one), hnext, hq, hs.one]
    · simp only [D.load, e, e1, e2, e7, hi, if_true, if_false, Nat.add_eq_right, Nat.add_one_ne_zero]
      rw [hv (i + 2) (by omega) (by omega), amount_law q.how _ _ _ (by rw [hq]; exact hs.more (i + 2) (by omega) hi), hnext, hq,
        hs.more (i + 2) (by omega) hi]
  · have : q.how.inc = true := by
      simp only [Bool.or_eq_true, Bool.not_eq_true', not_or, Bool.not_eq_true, Bool.not_eq_false] at hld
      exact hld.2
    rw [e, this]; rfl

example : ((D.new 2 : D ℚ).run 0 0 ([full fun _ => 1] ++ [half fun _ => 3] ++ [⟨⟨false, false, 1 / 4, 2⟩, none, true⟩])).ld 1 = 4 := by decide +kernel

end Gnucap.PolyG.Props
