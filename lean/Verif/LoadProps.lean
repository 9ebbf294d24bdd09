import Verif.LoadLemmas
import Mathlib.Tactic.NormNum
import Mathlib.Tactic.Positivity

/-!
# Properties of incremental loading (C08, C09)

The statements are about an arbitrary history of analyses, steps, iterations, unloads, option settings and device values,
ordered as `SIM::solve` orders them (`stageOf … = some …`).
-/
set_option linter.unusedSectionVars false
namespace Gnucap.Load
open Gnucap.Mat

variable {F : Type _} [Field F] [LinearOrder F] [IsStrictOrderedRing F]

/-- Specification: the nodal matrix of a circuit whose slot `k` has the value `w k`, with `g` on the diagonal. -/
def circuitM (N : ℕ) (slots : ℕ → Slot F) (w : ℕ → F) (g : F) (r c : ℕ) : F :=
  (if r = c then g else 0) + ∑ k ∈ Finset.range N, (slots k).mf * w k * coefM (slots k).kind r c

/-- Specification: the right side. -/
def circuitI (N : ℕ) (slots : ℕ → Slot F) (w : ℕ → F) (r : ℕ) : F :=
  ∑ k ∈ Finset.range N, (slots k).mf * w k * coefI (slots k).kind r

/-- A simulator on which nothing has been solved yet; the matrix, the factors and the slots may hold anything. -/
structure Start (reqs : List (ℕ × ℕ)) (st : St F) : Prop where
  flag : st.inc = .no
  kinds : ∀ k, KindOK reqs (st.slots k).kind
  lost : ∀ k, (st.slots k).lost = 0 ∧ (st.slots k).nlost = 0

theorem Start.inv {reqs : List (ℕ × ℕ)} {st : St F} (h : Start reqs st) (n : ℕ) (minp : F) (N : ℕ) :
    Inv n reqs minp N .idle st :=
  ⟨h.kinds, fun hh => absurd hh (by decide), fun hh => absurd hh (by decide),
    fun hh => absurd hh (by rw [h.flag]; decide), fun hh => absurd hh (by decide)⟩

/-- C08/C09 with C01, C02: after every loading iteration of every history, the node voltages solve the nodal equations of
the circuit as recorded in the slots — whether the iteration cleared the matrix or only added differences, loaded
everything or only the queue, factored everything or only what changed.  `lost` is what the de-noising of differences has
dropped since the matrix was last cleared (see `lost_bound`); the diagonal carries the `gmin` in force at the last clearing
and `minp` where a pivot was zero. -/
theorem iteration_solves_circuit (n : ℕ) (reqs : List (ℕ × ℕ)) (minp tol : F) (hmin : minp ≠ 0) (N : ℕ)
    (st : St F) (h0 : Start reqs st) (evs : List (Ev F)) (o : IterIn F) (stage : Stage)
    (hl : stageOf N (evs ++ [.iter o]) .idle = some stage) :
    let t := runEv n (iwantAll reqs) minp tol N (evs ++ [.iter o]) st
    ∃ e : ℕ → F, (∀ k, e k = 0 ∨ e k = minp) ∧
      Solves n (withDiag (circuitM N t.slots (fun k => (t.slots k).old - (t.slots k).lost) t.base) e) t.v
        (circuitI N t.slots (fun k => (t.slots k).old - (t.slots k).lost)) := by
  intro t
  -- split off the last event
  have hsplit : ∃ s1, stageOf N evs .idle = some s1 ∧ nextStage N s1 (.iter o) = some stage := by
    unfold stageOf at hl ⊢
    rw [List.foldlM_append] at hl
    cases h1 : List.foldlM (fun s e => nextStage N s e) Stage.idle evs with
    | none => rw [h1] at hl; exact absurd hl (by simp)
    | some s1 =>
      rw [h1] at hl
      exact ⟨s1, rfl, by simpa using hl⟩
  obtain ⟨s1, hs1, hs2⟩ := hsplit
  have hinv := inv_run n reqs minp tol N evs .idle s1 st (h0.inv n minp N) hs1
  set p := runEv n (iwantAll reqs) minp tol N evs st with hp
  have ht : t = stepEv n (iwantAll reqs) minp tol N (.iter o) p := by
    show runEv n _ minp tol N (evs ++ [.iter o]) st = _
    rw [runEv, List.foldl_append]; rfl
  have hst : s1 ≠ .idle ∧ ∀ k ∈ o.queue, k < N := by
    cases s1 <;> simp [nextStage] at hs2 ⊢ <;> exact hs2.1
  obtain ⟨c1, c2, c3, c4, c5⟩ := loaded n reqs minp tol N s1 p o hinv hst.1 hst.2
  set q := loadMatrix tol N o (evaluate o (clearArrays n o (setFlags o p))) with hq
  have hlu := luCopy_spec n (iwantAll reqs) minp (o.lubypass && q.isInc) q.mat.a q.lu q.mat.changed
    (iwantAll_wf n reqs) (fun hh => c2 (by simpa using (Bool.and_eq_true _ _ ▸ hh : _ ∧ _).2))
  have wf := iwantAll_wf n reqs
  set lu := (luCopy n (iwantAll reqs) minp (o.lubypass && q.isInc) q.mat.a q.lu q.mat.changed).1 with hludef
  have hpv : ∀ m, 1 ≤ m → m ≤ n → lu m m ≠ 0 := by
    intro m h1 h2
    rw [(hlu.1 m h1 h2).diag]; exact pivot_ne_zero hmin
  have htv : t.v = fbsub3Alias n (iwantAll reqs) lu q.v q.iv := by rw [ht]; rfl
  have hts : t.slots = q.slots := by rw [ht]; rfl
  have htb : t.base = q.base := by rw [ht]; rfl
  refine ⟨pivotFix (iwantAll reqs) minp q.mat.a lu, ?_, ?_⟩
  · intro k; unfold pivotFix; split
    · exact Or.inr rfl
    · exact Or.inl rfl
  · intro r h1 h2
    rw [hts, htb, htv]
    have hrow := solve_of_triangular n _ minp q.mat.a lu wf hlu.1 hpv q.iv _ _
      (fwdSub3_spec n (iwantAll reqs) lu q.iv q.v wf).1
      (backSub_spec n (iwantAll reqs) lu (fwdSub3 n (iwantAll reqs) lu q.iv q.v) wf).1 r h1 h2
    rw [show circuitI N q.slots (fun k => (q.slots k).old - (q.slots k).lost) r = q.iv r from (c1.2 r).symm, ← hrow]
    apply Finset.sum_congr rfl
    intro c hc
    rw [Finset.mem_Icc] at hc
    have hv : fbsub3Alias n (iwantAll reqs) lu q.v q.iv c =
        backSub n (iwantAll reqs) lu (fwdSub3 n (iwantAll reqs) lu q.iv q.v) c := by
      unfold fbsub3Alias; rw [vset_ne (by omega)]
    rw [hv]
    congr 1
    unfold withDiag
    congr 1
    rw [sget_spec _ (fun k => (iwantAll_spec reqs k).1)]
    by_cases hl : iwantAll reqs (max r c) ≤ min r c
    · rw [if_pos hl, c1.1 r c]
      unfold circuitM
      congr 1
      by_cases hrc : r = c
      · rw [if_pos hrc, if_pos ⟨hrc, h1, h2⟩]
      · rw [if_neg hrc, if_neg (fun hh => hrc hh.1)]
    · rw [if_neg hl]
      unfold circuitM
      have hrc : r ≠ c := by
        intro hh; subst hh; apply hl; simpa using (iwantAll_spec reqs r).1
      rw [if_neg hrc, zero_add]
      apply Finset.sum_eq_zero
      intro k _
      rw [coefM_profile reqs _ (c4 k) r c hl, mul_zero]

/-! ## what the de-noising drops -/

def EvBounded (M : F) : Ev F → Prop
  | .iter o => ∀ k, |o.vals k| ≤ M
  | .iterBypass o => ∀ k, |o.vals k| ≤ M
  | _ => True

theorem lost_loadSlot (tol damp M : F) (htol : 0 ≤ tol) (k : ℕ) (st : St F)
    (hM : st.iter ≤ 1 → ∀ j, |(st.slots j).new| ≤ M)
    (h : ∀ j, |(st.slots j).lost| ≤ (st.slots j).nlost * (tol * M)) :
    (st.iter ≤ 1 → ∀ j, |((loadSlot tol damp k st).slots j).new| ≤ M) ∧
    (∀ j, |((loadSlot tol damp k st).slots j).lost| ≤ ((loadSlot tol damp k st).slots j).nlost * (tol * M)) := by
  constructor
  · intro hi j
    by_cases hj : j = k
    · subst hj
      simp only [loadSlot, dampdiff, hi, decide_true]
      simpa using hM hi j
    · rw [loadSlot_slots_ne _ _ _ _ hj]; exact hM hi j
  · intro j
    by_cases hj : j = k
    · subst hj
      simp only [loadSlot, dampdiff, if_true]
      by_cases hinc : st.isInc = true
      · simp only [hinc, if_true]
        by_cases hi : st.iter ≤ 1
        · simp only [hi, decide_true, Bool.not_true, Bool.false_eq_true, if_false]
          unfold dnDiff fixzero
          by_cases hd : |(st.slots j).new - (st.slots j).old| < |(st.slots j).new * tol|
          · rw [if_pos hd, sub_zero]
            by_cases hz : (st.slots j).new - (st.slots j).old = 0
            · rw [hz]; simpa using h j
            · rw [if_pos hz]
              push_cast
              have h1 := h j
              have h2 := hM hi j
              have h3 : |(st.slots j).new * tol| ≤ M * tol := by
                rw [abs_mul, abs_of_nonneg htol]
                exact mul_le_mul_of_nonneg_right h2 htol
              have h4 := abs_add_le (st.slots j).lost ((st.slots j).new - (st.slots j).old)
              linarith [mul_comm M tol]
          · rw [if_neg hd, sub_self]; simpa using h j
        · simp only [hi, decide_false, Bool.not_false, if_true]
          simpa using h j
      · simp only [Bool.not_eq_true] at hinc
        simp [hinc]
    · rw [loadSlot_slots_ne _ _ _ _ hj]; exact h j

theorem lost_fold (tol damp M : F) (htol : 0 ≤ tol) : ∀ (q : List ℕ) (st : St F),
    (st.iter ≤ 1 → ∀ j, |(st.slots j).new| ≤ M) →
    (∀ j, |(st.slots j).lost| ≤ (st.slots j).nlost * (tol * M)) →
    ∀ j, |((q.foldl (fun st k => loadSlot tol damp k st) st).slots j).lost| ≤
      ((q.foldl (fun st k => loadSlot tol damp k st) st).slots j).nlost * (tol * M) := by
  intro q
  induction q with
  | nil => intro st _ h; exact h
  | cons k t ih =>
    intro st hM h
    obtain ⟨h1, h2⟩ := lost_loadSlot tol damp M htol k st hM h
    exact ih (loadSlot tol damp k st) (by simpa using h1) h2

/-- C08, quantitative part: what de-noising has dropped from a slot is at most (number of drops since the last clearing) ×
`roundofftol` × (largest value the devices produced). -/
theorem lost_bound (n : ℕ) (reqs : List (ℕ × ℕ)) (minp tol M : F) (htol : 0 ≤ tol) (N : ℕ)
    (st : St F) (h0 : Start reqs st) (evs : List (Ev F)) (hb : ∀ e ∈ evs, EvBounded M e)
    (hl : ∃ s, stageOf N evs .idle = some s) (k : ℕ) :
    let t := runEv n (iwantAll reqs) minp tol N evs st
    |(t.slots k).lost| ≤ (t.slots k).nlost * (tol * M) := by
  have gen : ∀ (evs : List (Ev F)) (stage : Stage) (st : St F),
      (∀ e ∈ evs, EvBounded M e) → (∃ s, stageOf N evs stage = some s) →
      (stage = .advancing → st.iter = 0) →
      (∀ j, |(st.slots j).lost| ≤ (st.slots j).nlost * (tol * M)) →
      ∀ j, |((runEv n (iwantAll reqs) minp tol N evs st).slots j).lost| ≤
        ((runEv n (iwantAll reqs) minp tol N evs st).slots j).nlost * (tol * M) := by
    intro evs
    induction evs with
    | nil => intro _ st _ _ _ h; exact h
    | cons e t ih =>
      intro stage st hb hs hadv h
      obtain ⟨s, hs⟩ := hs
      simp only [stageOf, List.foldlM_cons, Option.bind_eq_bind] at hs
      cases hn : nextStage N stage e with
      | none => rw [hn] at hs; exact absurd hs (by simp)
      | some s1 =>
        rw [hn] at hs
        have hrec := ih s1 (stepEv n (iwantAll reqs) minp tol N e st)
          (fun e' he' => hb e' (List.mem_cons_of_mem _ he')) ⟨s, hs⟩
        have hbe := hb e List.mem_cons_self
        refine hrec ?_ ?_
        · intro hs1
          subst hs1
          cases e with
          | sweepStart g lu ch => simp [nextStage] at hn
          | incNo => simp [nextStage] at hn
          | beginStep => rfl
          | unload k =>
            cases stage <;> simp [nextStage] at hn
            exact hadv rfl
          | iter o => cases stage <;> simp [nextStage] at hn
          | iterBypass o => cases stage <;> simp [nextStage] at hn
        · cases e with
          | sweepStart g lu ch => exact h
          | incNo => exact h
          | beginStep => exact h
          | unload k =>
            cases stage <;> simp [nextStage] at hn
            intro j
            simp only [stepEv]
            -- unloading never drops anything
            by_cases hj : j = k
            · subst hj
              have hit : st.iter ≤ 1 := by rw [hadv rfl]; omega
              simp only [loadSlot, dampdiff, if_true, hit, decide_true, Bool.not_true, Bool.false_eq_true, if_false]
              unfold dnDiff fixzero
              simp only [zero_mul, abs_zero, abs_nonneg, not_lt_of_ge, if_false, sub_self, ne_eq,
                not_true_eq_false, add_zero]
              split
              · exact h j
              · simp
            · rw [loadSlot_slots_ne _ _ _ _ hj]
              simp only [hj, if_false]; exact h j
          | iter o =>
            intro j
            show |((loadMatrix tol N o (evaluate o (clearArrays n o (setFlags o st)))).slots j).lost| ≤
              ((loadMatrix tol N o (evaluate o (clearArrays n o (setFlags o st)))).slots j).nlost * (tol * M)
            have e1 : ∀ j, |((evaluate o (clearArrays n o (setFlags o st))).slots j).new| ≤ M := by
              intro j; rw [(evaluate_kinds n o st j).2.2.1]; exact hbe j
            have e2 : ∀ j, |((evaluate o (clearArrays n o (setFlags o st))).slots j).lost| ≤
                ((evaluate o (clearArrays n o (setFlags o st))).slots j).nlost * (tol * M) := by
              intro j
              rw [(evaluate_kinds n o st j).2.2.2.2.1, (evaluate_kinds n o st j).2.2.2.2.2.1]; exact h j
            unfold loadMatrix
            split
            · exact lost_fold tol o.damp M htol _ _ (fun _ => e1) e2 j
            · exact lost_fold tol o.damp M htol _ _ (fun _ => e1) e2 j
          | iterBypass o =>
            intro j
            show |((evaluate o (clearArrays n o (setFlags o st))).slots j).lost| ≤
              ((evaluate o (clearArrays n o (setFlags o st))).slots j).nlost * (tol * M)
            rw [(evaluate_kinds n o st j).2.2.2.2.1, (evaluate_kinds n o st j).2.2.2.2.2.1]; exact h j
  intro t
  exact gen evs .idle st hb hl (fun hh => absurd hh (by decide))
    (fun j => by rw [(h0.lost j).1, (h0.lost j).2]; simp) k

/-- C08 exactly (the partial result for `roundofftol = 0`): with de-noising off nothing is ever dropped, so the voltages
solve exactly the nodal equations of the recorded values, as if matrix had been cleared and loaded afresh. -/
theorem iteration_solves_circuit_exact_partial (n : ℕ) (reqs : List (ℕ × ℕ)) (minp : F) (hmin : minp ≠ 0) (N : ℕ)
    (st : St F) (h0 : Start reqs st) (evs : List (Ev F)) (o : IterIn F) (stage : Stage)
    (hl : stageOf N (evs ++ [.iter o]) .idle = some stage)
    (hb : ∃ M, ∀ e ∈ evs ++ [.iter o], EvBounded M e) :
    let t := runEv n (iwantAll reqs) minp 0 N (evs ++ [.iter o]) st
    ∃ e : ℕ → F, (∀ k, e k = 0 ∨ e k = minp) ∧
      Solves n (withDiag (circuitM N t.slots (fun k => (t.slots k).old) t.base) e) t.v
        (circuitI N t.slots (fun k => (t.slots k).old)) := by
  intro t
  obtain ⟨M, hb⟩ := hb
  have h1 := iteration_solves_circuit n reqs minp 0 hmin N st h0 evs o stage hl
  have h2 : ∀ k, (t.slots k).lost = 0 := by
    intro k
    have := lost_bound n reqs minp 0 M (le_refl _) N st h0 _ hb ⟨stage, hl⟩ k
    simp only [zero_mul, mul_zero] at this
    exact abs_nonpos_iff.1 this
  have h3 : (fun k => (t.slots k).old - (t.slots k).lost) = fun k => (t.slots k).old := by
    funext k; rw [h2 k, sub_zero]
  rw [← h3]
  exact h1

/-! ## what is recorded -/

theorem near_fold (tol : F) (htol : 0 ≤ tol) (damp : F) (vals : ℕ → F) : ∀ (q : List ℕ) (st : St F),
    (st.iter ≤ 1 ∨ damp = 1) →
    (∀ k, (st.slots k).new = vals k ∨
      ((st.slots k).old = (st.slots k).new ∧ |(st.slots k).new - vals k| ≤ tol * |vals k|)) →
    (∀ k, ((q.foldl (fun st k => loadSlot tol damp k st) st).slots k).new = vals k ∨
      (((q.foldl (fun st k => loadSlot tol damp k st) st).slots k).old =
        ((q.foldl (fun st k => loadSlot tol damp k st) st).slots k).new ∧
       |((q.foldl (fun st k => loadSlot tol damp k st) st).slots k).new - vals k| ≤ tol * |vals k|)) ∧
    (∀ k, ((st.slots k).old = (st.slots k).new ∧ |(st.slots k).new - vals k| ≤ tol * |vals k| ∨ k ∈ q) →
      ((q.foldl (fun st k => loadSlot tol damp k st) st).slots k).old =
        ((q.foldl (fun st k => loadSlot tol damp k st) st).slots k).new ∧
       |((q.foldl (fun st k => loadSlot tol damp k st) st).slots k).new - vals k| ≤ tol * |vals k|) := by
  intro q
  induction q with
  | nil =>
    intro st _ h
    exact ⟨h, fun k hk => hk.elim id (fun h => absurd h (by simp))⟩
  | cons k t ih =>
    intro st hd h
    have key : ((loadSlot tol damp k st).slots k).old = ((loadSlot tol damp k st).slots k).new ∧
        |((loadSlot tol damp k st).slots k).new - vals k| ≤ tol * |vals k| := by
      refine ⟨by simp [loadSlot], ?_⟩
      have hnn : (0 : F) ≤ tol * |vals k| := mul_nonneg htol (abs_nonneg _)
      simp only [loadSlot, dampdiff, if_true]
      by_cases hi : st.iter ≤ 1
      · simp only [hi, decide_true, Bool.not_true, Bool.false_eq_true, if_false]
        rcases h k with h1 | h1
        · rw [h1]; simpa using hnn
        · exact h1.2
      · have hd1 : damp = 1 := hd.resolve_left hi
        simp only [hi, decide_false, Bool.not_false, if_true, hd1, mul_one]
        unfold dnDiff fixzero
        rcases h k with h1 | h1
        · rw [h1]
          by_cases hlt : |vals k - (st.slots k).old| < |vals k * tol|
          · rw [if_pos hlt, add_zero, abs_sub_comm]
            rw [abs_mul, abs_of_nonneg htol, mul_comm] at hlt
            exact hlt.le
          · rw [if_neg hlt]; simpa using hnn
        · rw [h1.1, sub_self, ite_self, add_zero]; exact h1.2
    have h' : ∀ j, ((loadSlot tol damp k st).slots j).new = vals j ∨
        (((loadSlot tol damp k st).slots j).old = ((loadSlot tol damp k st).slots j).new ∧
          |((loadSlot tol damp k st).slots j).new - vals j| ≤ tol * |vals j|) := by
      intro j
      by_cases hj : j = k
      · subst hj; exact Or.inr key
      · rw [loadSlot_slots_ne _ _ _ _ hj]; exact h j
    have := ih (loadSlot tol damp k st) (by simpa using hd) h'
    refine ⟨this.1, fun j hj => this.2 j ?_⟩
    by_cases hjk : j = k
    · subst hjk; exact Or.inl key
    · rcases hj with hj | hj
      · left; rw [loadSlot_slots_ne _ _ _ _ hjk]; exact hj
      · right
        rcases List.mem_cons.1 hj with hj | hj
        · exact absurd hj hjk
        · exact hj

/-- C08: an undamped iteration records (and so solves with) exactly what the devices produced, up to the de-noising
tolerance, for every slot that was queued, and for all slots if the matrix was cleared or queueing is off. -/
theorem recorded_values (n N : ℕ) (low : ℕ → ℕ) (minp tol : F) (htol : 0 ≤ tol) (o : IterIn F) (st : St F)
    (hd : st.iter = 0 ∨ o.damp = 1) (k : ℕ) (hk : k < N)
    (hq : k ∈ o.queue ∨ o.traceload = false ∨ (setFlags o st).inc = .no) :
    let t := stepEv n low minp tol N (.iter o) st
    (t.slots k).old = (t.slots k).new ∧ |(t.slots k).old - o.vals k| ≤ tol * |o.vals k| := by
  intro t
  set p := evaluate o (clearArrays n o (setFlags o st)) with hp
  have hts : t.slots = (loadMatrix tol N o p).slots := rfl
  have hiter : p.iter = st.iter + 1 := (evaluate_kinds n o st 0).2.2.2.2.2.2
  have hnew : ∀ j, (p.slots j).new = o.vals j := fun j => (evaluate_kinds n o st j).2.2.1
  have hd' : p.iter ≤ 1 ∨ o.damp = 1 := by
    rcases hd with hd | hd
    · left; omega
    · exact Or.inr hd
  have fin : ∀ q : List ℕ, k ∈ q → (loadMatrix tol N o p) = q.foldl (fun st k => loadSlot tol o.damp k st) p →
      (t.slots k).old = (t.slots k).new ∧ |(t.slots k).old - o.vals k| ≤ tol * |o.vals k| := by
    intro q hkq he
    have := (near_fold tol htol o.damp o.vals q p hd' (fun j => Or.inl (hnew j))).2 k (Or.inr hkq)
    rw [hts, he]
    exact ⟨this.1, by rw [this.1]; exact this.2⟩
  by_cases hb : (o.traceload && p.isInc) = true
  · have hkq : k ∈ o.queue := by
      rcases hq with hq | hq | hq
      · exact hq
      · rw [hq] at hb; simp at hb
      · exfalso
        have : p.isInc = false := by
          have hc : (clearArrays n o (setFlags o st)).inc = .no := by
            unfold clearArrays; split <;> exact hq
          unfold St.isInc
          show (match (if o.mark then markBad (clearArrays n o (setFlags o st)).inc
            else (clearArrays n o (setFlags o st)).inc) with | .no => false | .yes => true | .bad => true) = false
          rw [hc]; cases o.mark <;> rfl
        rw [this] at hb; simp at hb
    exact fin o.queue hkq (by unfold loadMatrix; rw [if_pos hb])
  · exact fin (List.range N) (List.mem_range.2 hk) (by unfold loadMatrix; rw [if_neg hb])

/-! ## C09: clear, load and factor agree -/

/-- C09: in every iteration of every legal history, one and the same answer governs clearing, loading and factoring:
* if the matrix was cleared, every slot is loaded with its full value and the factorisation is complete;
* if it was not, only differences are loaded, and it held the complete circuit before. -/
theorem clear_load_factor_agree (n : ℕ) (reqs : List (ℕ × ℕ)) (minp tol : F) (N : ℕ)
    (st : St F) (h0 : Start reqs st) (evs : List (Ev F)) (o : IterIn F) (stage : Stage)
    (hl : stageOf N (evs ++ [.iter o]) .idle = some stage) :
    let before := runEv n (iwantAll reqs) minp tol N evs st
    let flagged := setFlags o before
    let prepared := evaluate o (clearArrays n o flagged)
    let loaded := loadMatrix tol N o prepared
    (flagged.isInc = false →
      prepared.mat.a = (fun r c => if r = c ∧ 1 ≤ r ∧ r ≤ n then 0 + o.gmin else 0) ∧ prepared.iv = (fun _ => 0) ∧
      loaded = (List.range N).foldl (fun st k => loadSlot tol o.damp k st) prepared ∧
      (∀ k, amount tol o.damp k prepared = (prepared.slots k).mf *
        (dampdiff tol o.damp false (decide (prepared.iter ≤ 1)) (prepared.slots k)).2.new) ∧
      (o.lubypass && loaded.isInc) = false) ∧
    (flagged.isInc = true →
      prepared.mat = before.mat ∧ prepared.iv = before.iv ∧ Cons n N before ∧
      (∀ k, amount tol o.damp k prepared = (dampdiff tol o.damp true (decide (prepared.iter ≤ 1)) (prepared.slots k)).1)) := by
  intro before flagged prepared loaded'
  have hsplit : ∃ s1, stageOf N evs .idle = some s1 ∧ nextStage N s1 (.iter o) = some stage := by
    unfold stageOf at hl ⊢
    rw [List.foldlM_append] at hl
    cases h1 : List.foldlM (fun s e => nextStage N s e) Stage.idle evs with
    | none => rw [h1] at hl; exact absurd hl (by simp)
    | some s1 =>
      rw [h1] at hl
      exact ⟨s1, rfl, by simpa using hl⟩
  obtain ⟨s1, hs1, hs2⟩ := hsplit
  have hinv := inv_run n reqs minp tol N evs .idle s1 st (h0.inv n minp N) hs1
  have hst : s1 ≠ .idle := by
    intro hh; subst hh; simp [nextStage] at hs2
  constructor
  · intro hf
    have hno : flagged.inc = .no := by
      cases hi : flagged.inc <;> simp [St.isInc, hi] at hf ⊢
    have hc : clearArrays n o flagged =
        { flagged with mat := clearWith n o.gmin flagged.mat, iv := fun _ => 0, base := o.gmin } := by
      unfold clearArrays; rw [hf]; rfl
    have hpi : prepared.isInc = false := by
      show (evaluate o (clearArrays n o flagged)).isInc = false
      rw [hc]; unfold St.isInc evaluate; simp only [hno]; cases o.mark <;> rfl
    have hld : loaded' = (List.range N).foldl (fun st k => loadSlot tol o.damp k st) prepared := by
      show loadMatrix tol N o prepared = _
      unfold loadMatrix; rw [hpi]; simp
    refine ⟨?_, ?_, hld, ?_, ?_⟩
    · show (evaluate o (clearArrays n o flagged)).mat.a = _
      rw [hc]; rfl
    · show (evaluate o (clearArrays n o flagged)).iv = _
      rw [hc]; rfl
    · intro k; unfold amount; rw [hpi]; simp [dampdiff]
    · rw [hld, isInc_congr (fold_inc tol o.damp (List.range N) prepared).1, hpi, Bool.and_false]
  · intro hf
    have hc : clearArrays n o flagged = flagged := by unfold clearArrays; rw [hf]; rfl
    obtain ⟨e1, e2, e3, e4, e5, e6, e7⟩ := setFlags_rest o before
    have hpi : prepared.isInc = true := by
      show (evaluate o (clearArrays n o flagged)).isInc = true
      rw [hc]
      cases hi : flagged.inc <;> simp [St.isInc, hi] at hf
      · unfold St.isInc evaluate; simp only [hi]; cases o.mark <;> rfl
      · unfold St.isInc evaluate; simp only [hi]; cases o.mark <;> rfl
    refine ⟨?_, ?_, ?_, ?_⟩
    · show (evaluate o (clearArrays n o flagged)).mat = _
      rw [hc]; exact e2
    · show (evaluate o (clearArrays n o flagged)).iv = _
      rw [hc]; exact e3
    · rcases setFlags_cases o before with hno | ⟨_, hw | hw⟩
      · have hno' : flagged.inc = .no := hno
        rw [St.isInc, hno'] at hf; exact absurd hf (by decide)
      · exact (hinv.yes hw).1
      · have : s1 = .iterating := by
          cases s1 with
          | idle => exact absurd rfl hst
          | advancing => exact absurd (hinv.adv rfl) hw
          | iterating => rfl
        exact (hinv.run this).1
    · intro k; unfold amount; rw [hpi]

/-! ## Concrete histories -/

/-- one conductance from node 1 to ground and one current source into node 1 -/
def demoSlots : ℕ → Slot ℚ
  | 0 => { kind := .passive 1 0, mf := 1, new := 0, old := 0, lost := 0, nlost := 0 }
  | _ => { kind := .source 0 1, mf := 1, new := 0, old := 0, lost := 0, nlost := 0 }

def demoStart : St ℚ :=
  { mat := ⟨fun _ _ => 5, fun _ => false⟩, iv := fun _ => 3, lu := fun _ _ => 7, v := fun _ => 0, slots := demoSlots,
    base := 0 }

theorem demo_start : Start [] demoStart := by
  refine ⟨rfl, ?_, ?_⟩
  · intro k; cases k <;> simp [demoStart, demoSlots, KindOK, Kind.pairs]
  · intro k; cases k <;> simp [demoStart, demoSlots]

def demoIter (g i : ℚ) : IterIn ℚ := { gmin := 0, damp := 1, vals := fun k => if k = 0 then g else i, queue := [0, 1] }

/-- two steps: full load, incremental re-loads, an unload in between, a bypassed last iteration -/
def demoHist : List (Ev ℚ) :=
  [.sweepStart 0 (fun _ _ => 9) (fun _ => true), .beginStep, .iter (demoIter 2 6), .iter (demoIter 3 6),
   .iterBypass (demoIter 3 6), .beginStep, .unload 0]

example : stageOf 2 (demoHist ++ [.iter (demoIter 4 8)]) .idle = some .iterating := by decide
example : ∃ M : ℚ, ∀ e ∈ demoHist ++ [Ev.iter (demoIter 4 8)], EvBounded M e := by
  refine ⟨10, ?_⟩
  intro e he
  simp only [demoHist, List.cons_append, List.nil_append, List.mem_cons, List.not_mem_nil, or_false] at he
  rcases he with rfl | rfl | rfl | rfl | rfl | rfl | rfl | rfl <;> simp only [EvBounded] <;>
    intro k <;> simp only [demoIter] <;> split <;> norm_num [abs_le]

/-- C08 fails exactly as stated when de-noising is on (as it is by default, 1e-13): in the first iteration of a step a
change below the tolerance is recorded by the element but not loaded, and it is never made up for.  Here after a second
step the element records `1 + 5e-14`, the matrix holds 1. -/
def driftStep (v : ℚ) : List (Ev ℚ) := [.beginStep, .iter (demoIter v 0)]

theorem loading_drifts :
    let st := runEv 1 (iwantAll []) 1 (1 / 10^13) 2
      ([.sweepStart 0 (fun _ _ => 9) (fun _ => true), .beginStep, .iter (demoIter 1 0), .iter (demoIter 1 0)] ++
        driftStep (1 + 5 / 10^14) ++ driftStep (1 + 10 / 10^14) ++ driftStep (1 + 15 / 10^14)) demoStart
    (st.slots 0).old = 1 + 15 / 10^14 ∧ st.mat.a 1 1 = 1 := by
  decide +kernel

/-- C11 (found here): the `gmin` on the diagonal is that of the last *clearing* iteration, not the option in force.
`solve_with_homotopy` restores `OPT::gmin` and solves again without `set_inc_mode_no` (s__solve.cc:117-120), so the final
solve works with the gmin of the last homotopy step until iteration number `itl3`. -/
theorem final_solve_keeps_homotopy_gmin :
    let it (g : ℚ) : IterIn ℚ := { gmin := g, damp := 1, vals := fun k => if k = 0 then 2 else 6, queue := [0, 1] }
    let st := runEv 1 (iwantAll []) 1 (1 / 10^13) 2
      ([.incNo, .beginStep, .iter (it 4), .iter (it 4), .iter (it 4)] ++      -- last homotopy solve, gmin = 4
       [.beginStep, .iter (it 1), .iter (it 1)]) demoStart                     -- final solve, the user's gmin = 1
    st.mat.a 1 1 = 2 + 4 ∧ st.v 1 = 1 := by
  decide +kernel

end Gnucap.Load
