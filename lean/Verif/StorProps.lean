import Verif.StorModel
import Verif.IntegProps
import Verif.BehavProps
import Mathlib.Analysis.Calculus.Deriv.Mul

/-! # Capacitors and inductors over a transient (C67) -/
set_option linter.unusedSimpArgs false
set_option linter.unusedSectionVars false
namespace Gnucap.Stor
open Gnucap.Integ

section
variable {F : Type _} [Field F] [DecidableEq F]

/-! ## Specification -/

/-- the sum of rate times step: what has gone through, if each step has the rate found at its end -/
def through : F → List (Rec F) → F
  | _, [] => 0
  | t, r :: rs => r.i.f0 * (r.t - t) + through r.t rs

/-- the sum of the mean of the rates at both ends times the step -/
def meanThrough : F → F → List (Rec F) → F
  | _, _, [] => 0
  | t, i, r :: rs => (r.i.f0 + i) / 2 * (r.t - t) + meanThrough r.t r.i.f0 rs

/-- each step ends at another time than it began -/
def Moves : F → List (Step F) → Prop
  | _, [] => True
  | t, p :: ps => p.final.t ≠ t ∧ Moves p.final.t ps

/-- all steps are equal -/
def Even (h : F) : F → List (Step F) → Prop
  | _, [] => True
  | t, p :: ps => p.final.t = t + h ∧ Even h p.final.t ps

/-! ## One step -/

theorem shift_zero {α : Type _} (a : ℕ → α) : shift a 0 = a 0 := by rw [shift_spec]; simp
theorem shift_one {α : Type _} (a : ℕ → α) : shift a 1 = a 0 := by rw [shift_spec]; simp [keep]
theorem shift_two {α : Type _} (a : ℕ → α) : shift a 2 = a 1 := by rw [shift_spec]; simp [keep]

/-- `s'` comes from evaluations on the history of `s` -/
structure Evals (d : Desc F) (m : Method) (e : Ext F) (s s' : Sto F) : Prop where
  value : s'.value = s.value
  time : s'.time = s.time
  y : ∀ k, k ≠ 0 → s'.y k = s.y k
  i : ∀ k, k ≠ 0 → s'.i k = s.i k
  rate : s'.i 0 = differentiate .dynamic s'.y s'.i s'.time m
  m0 : s'.m0 = line d (s'.i 0)
  charge : ∃ s0 : Sto F, s0.value = s.value ∧ s'.y 0 = s0.charge d e

theorem differentiate_i (ph : Phase) (hp : ph ≠ .restore) (q i i' : ℕ → FPoly F) (h : i 1 = i' 1) (time : ℕ → F) (m : Method) :
    differentiate ph q i time m = differentiate ph q i' time m := by
  cases ph with
  | static => rfl
  | restore => exact absurd rfl hp
  | dynamic =>
    unfold differentiate
    simp only
    cases usedMethod time m <;> simp only [h]

theorem doTr_evals (d : Desc F) (m : Method) (e : Ext F) (s : Sto F) : Evals d m e s (s.doTr d .dynamic m e) where
  value := rfl
  time := rfl
  y := by intro k hk; simp [Sto.doTr, set0, hk]
  i := by intro k hk; simp [Sto.doTr, set0, hk]
  rate := by
    change differentiate .dynamic (set0 s.y (s.charge d e)) s.i s.time m = differentiate .dynamic (set0 s.y (s.charge d e)) _ s.time m
    exact differentiate_i _ (by decide) _ _ _ (by simp [Sto.doTr, set0]) _ _
  m0 := rfl
  charge := ⟨s, rfl, rfl⟩

theorem iters_evals (d : Desc F) (m : Method) (a : Try F) (s : Sto F) : Evals d m a.last s (s.iters d m a) := by
  unfold Sto.iters
  rw [List.foldl_append]
  simp only [List.foldl_cons, List.foldl_nil]
  have H : ∀ (l : List (Ext F)) (s : Sto F),
      (l.foldl (fun s e => s.doTr d .dynamic m e) s).value = s.value ∧ (l.foldl (fun s e => s.doTr d .dynamic m e) s).time = s.time ∧
      (∀ k, k ≠ 0 → (l.foldl (fun s e => s.doTr d .dynamic m e) s).y k = s.y k) ∧
      (∀ k, k ≠ 0 → (l.foldl (fun s e => s.doTr d .dynamic m e) s).i k = s.i k) := by
    intro l
    induction l with
    | nil => intro s; exact ⟨rfl, rfl, fun _ _ => rfl, fun _ _ => rfl⟩
    | cons e l ih =>
      intro s
      obtain ⟨h1, h2, h3, h4⟩ := ih (s.doTr d .dynamic m e)
      have E := doTr_evals d m e s
      exact ⟨h1.trans E.value, h2.trans E.time, fun k hk => (h3 k hk).trans (E.y k hk), fun k hk => (h4 k hk).trans (E.i k hk)⟩
  obtain ⟨h1, h2, h3, h4⟩ := H a.its s
  generalize a.its.foldl (fun s e => s.doTr d .dynamic m e) s = s0 at h1 h2 h3 h4 ⊢
  have E := doTr_evals d m a.last s0
  obtain ⟨s1, e1, e2⟩ := E.charge
  exact ⟨E.value.trans h1, E.time.trans h2, fun k hk => (E.y k hk).trans (h3 k hk), fun k hk => (E.i k hk).trans (h4 k hk), E.rate, E.m0,
    s1, e1.trans h1, e2⟩

/-- What a step leaves, whatever was tried on the way: the history is that before, moved by one, and the new values are those
of the last evaluation of the last attempt. -/
structure Stepped (d : Desc F) (m : Method) (p : Step F) (s s' : Sto F) : Prop where
  value : s'.value = s.value
  t0 : s'.time 0 = p.final.t
  t1 : s'.time 1 = s.time 0
  t2 : s'.time 2 = s.time 1
  y1 : s'.y 1 = s.y 0
  y2 : s'.y 2 = s.y 1
  i1 : s'.i 1 = s.i 0
  rate : s'.i 0 = differentiate .dynamic s'.y s'.i s'.time m
  m0 : s'.m0 = line d (s'.i 0)
  charge : ∃ s0 : Sto F, s0.value = s.value ∧ s'.y 0 = s0.charge d p.final.last

theorem step_stepped (d : Desc F) (m : Method) (p : Step F) (s : Sto F) : Stepped d m p s (s.step d m p) := by
  obtain ⟨f, more⟩ := p
  unfold Sto.step
  simp only
  induction more using List.reverseRecOn with
  | nil =>
    simp only [List.foldl_nil]
    have E := iters_evals d m f (s.advance f.t)
    obtain ⟨s1, e1, e2⟩ := E.charge
    refine ⟨E.value, ?_, ?_, ?_, ?_, ?_, ?_, E.rate, E.m0, s1, e1, e2⟩
    · rw [E.time]; rfl
    · rw [E.time]; change set0 (shift s.time) f.t 1 = _; simp [set0, shift_one]
    · rw [E.time]; change set0 (shift s.time) f.t 2 = _; simp [set0, shift_two]
    · rw [E.y 1 (by omega)]; exact shift_one _
    · rw [E.y 2 (by omega)]; exact shift_two _
    · rw [E.i 1 (by omega)]; exact shift_one _
  | append_singleton l a ih =>
    rw [List.foldl_append]
    simp only [List.foldl_cons, List.foldl_nil]
    generalize l.foldl (fun s a => (s.regress a.t).iters d m a) ((s.advance f.t).iters d m f) = s0 at ih ⊢
    have E := iters_evals d m a (s0.regress a.t)
    have hf : (Step.mk f (l ++ [a])).final = a := by simp [Step.final]
    obtain ⟨s1, e1, e2⟩ := E.charge
    refine ⟨E.value.trans ih.value, ?_, ?_, ?_, ?_, ?_, ?_, E.rate, E.m0, s1, e1.trans ih.value, by rw [hf]; exact e2⟩
    · rw [E.time, hf]; rfl
    · rw [E.time, ← ih.t1]; simp [Sto.regress, set0]
    · rw [E.time, ← ih.t2]; simp [Sto.regress, set0]
    · rw [E.y 1 (by omega)]; exact ih.y1
    · rw [E.y 2 (by omega)]; exact ih.y2
    · rw [E.i 1 (by omega)]; exact ih.i1

/-! ## Charge balance -/

variable [CharZero F]

/-- **C67**: with the Euler method, what the rates of the steps carry is the change of the charge, exactly, whatever was
rejected on the way and for any sizes of the steps. -/
theorem euler_balance (d : Desc F) (m : Method) (hm : m = .euler ∨ m = .trapeuler) : ∀ (ps : List (Step F)) (s : Sto F), Moves (s.time 0) ps →
    through (s.time 0) (s.run d m ps).1 = ((s.run d m ps).2.y 0).f0 - (s.y 0).f0 := by
  intro ps
  induction ps with
  | nil => intro s _; simp [Sto.run, through]
  | cons p ps ih =>
    intro s hM
    have S := step_stepped d m p s
    have I := ih (s.step d m p) (by rw [S.t0]; exact hM.2)
    simp only [Sto.run, through]
    rw [S.t0] at I
    rw [I]
    have hne : p.final.t - s.time 0 ≠ 0 := sub_ne_zero.mpr hM.1
    have hu : usedMethod (s.step d m p).time m = .euler ∨ usedMethod (s.step d m p).time m = .trapeuler := by
      unfold usedMethod
      split
      · exact .inl rfl
      · exact hm
    have hr : ((s.step d m p).i 0).f0 = (((s.step d m p).y 0).f0 - (s.y 0).f0) / (p.final.t - s.time 0) := by
      rw [S.rate]
      unfold differentiate
      simp only
      rw [← S.y1, ← S.t0, ← S.t1]
      rcases hu with h | h <;> rw [h]
    rw [hr, div_mul_cancel₀ _ hne]
    ring

theorem trap_from (d : Desc F) : ∀ (ps : List (Step F)) (s : Sto F), Moves (s.time 0) ps → s.time 0 ≠ s.time 1 →
    meanThrough (s.time 0) (s.i 0).f0 (s.run d .trap ps).1 = ((s.run d .trap ps).2.y 0).f0 - (s.y 0).f0 := by
  intro ps
  induction ps with
  | nil => intro s _ _; simp [Sto.run, meanThrough]
  | cons p ps ih =>
    intro s hM ht
    have S := step_stepped d .trap p s
    have I := ih (s.step d .trap p) (by rw [S.t0]; exact hM.2) (by rw [S.t0, S.t1]; exact hM.1)
    simp only [Sto.run, meanThrough]
    rw [S.t0] at I
    rw [I]
    have hne : p.final.t - s.time 0 ≠ 0 := sub_ne_zero.mpr hM.1
    have hu : usedMethod (s.step d .trap p).time .trap = .trap := by
      unfold usedMethod
      rw [if_neg (by rw [S.t1, S.t2]; exact ht)]
    have hr : ((s.step d .trap p).i 0).f0 = 2 * (((s.step d .trap p).y 0).f0 - (s.y 0).f0) / (p.final.t - s.time 0) - (s.i 0).f0 := by
      rw [S.rate]
      unfold differentiate
      simp only [hu]
      rw [S.y1, S.t0, S.t1, S.i1]
    rw [hr]
    field_simp
    ring

/-- the first step after a DC analysis is an Euler step -/
theorem first_rate (d : Desc F) (m : Method) (p : Step F) (s : Sto F) (h0 : s.time 0 = s.time 1) :
    ((s.step d m p).i 0).f0 = (((s.step d m p).y 0).f0 - (s.y 0).f0) / (p.final.t - s.time 0) := by
  have S := step_stepped d m p s
  rw [S.rate]
  unfold differentiate usedMethod
  simp only
  rw [if_pos (by rw [S.t1, S.t2]; exact h0)]
  simp only
  rw [S.y1, S.t0, S.t1]

/-- **C67**: with the trapezoidal method, started from a DC analysis, the first rate times the first step and then the means
times the steps carry exactly the change of the charge. -/
theorem trap_balance (d : Desc F) (p : Step F) (ps : List (Step F)) (s : Sto F) (h0 : s.time 0 = s.time 1) (hM : Moves (s.time 0) (p :: ps)) :
    ∃ r rs, (s.run d .trap (p :: ps)).1 = r :: rs ∧
      r.i.f0 * (r.t - s.time 0) + meanThrough r.t r.i.f0 rs = ((s.run d .trap (p :: ps)).2.y 0).f0 - (s.y 0).f0 := by
  have S := step_stepped d .trap p s
  refine ⟨_, _, rfl, ?_⟩
  simp only
  have I := trap_from d ps (s.step d .trap p) (by rw [S.t0]; exact hM.2) (by rw [S.t0, S.t1]; exact hM.1)
  rw [S.t0] at I
  rw [I, first_rate d .trap p s h0, div_mul_cancel₀ _ (sub_ne_zero.mpr hM.1)]
  simp only [Sto.run]
  ring

theorem gear_from (d : Desc F) (m : Method) (hm : m = .gear ∨ m = .trapgear) (h : F) (hh : h ≠ 0) : ∀ (ps : List (Step F)) (s : Sto F),
    Even h (s.time 0) ps → s.time 0 - s.time 1 = h →
    through (s.time 0) (s.run d m ps).1 = ((s.run d m ps).2.y 0).f0 - (s.y 0).f0 +
      ((((s.run d m ps).2.y 0).f0 - ((s.run d m ps).2.y 1).f0) - ((s.y 0).f0 - (s.y 1).f0)) / 2 := by
  intro ps
  induction ps with
  | nil => intro s _ _; simp [Sto.run, through]
  | cons p ps ih =>
    intro s hE ht
    have S := step_stepped d m p s
    have hp : p.final.t - s.time 0 = h := by rw [hE.1]; ring
    have I := ih (s.step d m p) (by rw [S.t0]; exact hE.2) (by rw [S.t0, S.t1]; exact hp)
    simp only [Sto.run, through]
    rw [S.t0, S.y1] at I
    rw [I]
    have hu : usedMethod (s.step d m p).time m = .gear ∨ usedMethod (s.step d m p).time m = .trapgear := by
      unfold usedMethod
      rw [if_neg (by rw [S.t1, S.t2]; intro hc; rw [hc, sub_self] at ht; exact hh ht.symm)]
      exact hm
    have hr : ((s.step d m p).i 0).f0 =
        (3/2) * (((s.step d m p).y 0).f0 - (s.y 0).f0) / h - (1/2) * ((s.y 0).f0 - (s.y 1).f0) / h := by
      rw [S.rate]
      unfold differentiate
      simp only
      rcases hu with hu | hu <;> rw [hu] <;> simp only <;> rw [S.y1, S.y2, S.t0, S.t1, S.t2, hp, ht]
    rw [hr, hp]
    field_simp
    ring

/-- **C67**: with Gear's method and equal steps, started from a DC analysis, the rates times the step carry the change of the
charge up to half the difference between the change in the last step and in the first. -/
theorem gear_balance (d : Desc F) (m : Method) (hm : m = .gear ∨ m = .trapgear) (h : F) (hh : h ≠ 0) (p : Step F) (ps : List (Step F)) (s : Sto F)
    (h0 : s.time 0 = s.time 1) (hE : Even h (s.time 0) (p :: ps)) :
    ∃ r rs, (s.run d m (p :: ps)).1 = r :: rs ∧
      through (s.time 0) (r :: rs) = ((s.run d m (p :: ps)).2.y 0).f0 - (s.y 0).f0 +
        ((((s.run d m (p :: ps)).2.y 0).f0 - ((s.run d m (p :: ps)).2.y 1).f0) - (r.y.f0 - (s.y 0).f0)) / 2 := by
  have S := step_stepped d m p s
  refine ⟨_, _, rfl, ?_⟩
  simp only [through]
  have hp : p.final.t - s.time 0 = h := by rw [hE.1]; ring
  have I := gear_from d m hm h hh ps (s.step d m p) (by rw [S.t0]; exact hE.2) (by rw [S.t0, S.t1]; exact hp)
  rw [S.t0, S.y1] at I
  rw [I, first_rate d m p s h0, hp, div_mul_cancel₀ _ hh]
  simp only [Sto.run]
  ring

/-! ## What the charge is, and the line -/

/-- an element whose `_y[0].f1` is its value where that is relied on -/
def Sto.Fresh (d : Desc F) (s : Sto F) : Prop := d.using = false → (s.y 0).f1 = s.value

theorem charge_cap (d : Desc F) (hc : d.cls = .cap ∨ d.cls = .tcap) (a : Ext F) (s : Sto F) (hf : s.Fresh d) :
    s.charge d a = trEval d s.value a.vin := by
  unfold Sto.charge
  rcases hc with hc | hc <;> rw [hc] <;> simp only <;>
  · by_cases hu : d.using = true
    · rw [if_pos hu]
    · rw [if_neg hu, hf (by simpa using hu)]
      unfold Desc.using at hu
      simp only [Bool.or_eq_true, not_or] at hu
      unfold trEval
      cases hfn : d.fn with
      | none => rfl
      | some g => rw [hfn] at hu; simp at hu

theorem fresh_doTr (d : Desc F) (hc : d.cls ≠ .vccap) (ph : Phase) (m : Method) (a : Ext F) (s : Sto F) (hf : s.Fresh d) :
    (s.doTr d ph m a).Fresh d := by
  intro hu
  change (s.charge d a).f1 = s.value
  unfold Sto.charge
  cases h : d.cls with
  | vccap => exact absurd h hc
  | _ => simp only [hu, Bool.false_eq_true, if_false]; exact hf hu

theorem fresh_begin (d : Desc F) (v : F) : (begin d v).Fresh d := fun _ => rfl

theorem fresh_iters (d : Desc F) (hc : d.cls ≠ .vccap) (m : Method) (a : Try F) (s : Sto F) (hf : s.Fresh d) : (s.iters d m a).Fresh d := by
  unfold Sto.iters
  generalize a.its ++ [a.last] = l
  induction l generalizing s with
  | nil => exact hf
  | cons e l ih => exact ih _ (fresh_doTr d hc _ m e s hf)

theorem fresh_step (d : Desc F) (hc : d.cls ≠ .vccap) (m : Method) (p : Step F) (s : Sto F) (hf : s.Fresh d) : (s.step d m p).Fresh d := by
  unfold Sto.step
  have h1 : ((s.advance p.first.t).iters d m p.first).Fresh d := by
    refine fresh_iters d hc m _ _ ?_
    intro hu
    change (shift s.y 0).f1 = s.value
    rw [shift_zero]
    exact hf hu
  generalize (s.advance p.first.t).iters d m p.first = s0 at h1
  generalize p.more = l
  induction l generalizing s0 with
  | nil => exact h1
  | cons a l ih => exact ih _ (fresh_iters d hc m a _ (fun hu => h1 hu))

/-- The charge a capacitor or transcapacitor has after a step is its function at the last voltage, or the capacitance times
it. -/
theorem step_charge (d : Desc F) (hc : d.cls = .cap ∨ d.cls = .tcap) (m : Method) (p : Step F) (s : Sto F) (hf : s.Fresh d) :
    (s.step d m p).y 0 = trEval d s.value p.final.last.vin := by
  have hc' : d.cls ≠ .vccap := by rcases hc with h | h <;> rw [h] <;> decide
  obtain ⟨f, more⟩ := p
  unfold Sto.step
  simp only
  have key : ∀ (a : Try F) (s : Sto F), s.Fresh d → (s.iters d m a).y 0 = trEval d s.value a.last.vin ∧ (s.iters d m a).value = s.value := by
    intro a s hs
    have hv := (iters_evals d m a s).value
    refine ⟨?_, hv⟩
    unfold Sto.iters
    rw [List.foldl_append]
    simp only [List.foldl_cons, List.foldl_nil]
    have H : ∀ (l : List (Ext F)) (s : Sto F), s.Fresh d → (l.foldl (fun s e => s.doTr d .dynamic m e) s).Fresh d ∧
        (l.foldl (fun s e => s.doTr d .dynamic m e) s).value = s.value := by
      intro l
      induction l with
      | nil => intro s hs; exact ⟨hs, rfl⟩
      | cons e l ih => intro s hs; exact ih _ (fresh_doTr d hc' _ m e s hs)
    obtain ⟨h1, h2⟩ := H a.its s hs
    have := charge_cap d hc a.last _ h1
    rw [h2] at this
    exact this
  have hA : (s.advance f.t).Fresh d := by
    intro hu
    change (shift s.y 0).f1 = s.value
    rw [shift_zero]
    exact hf hu
  induction more using List.reverseRecOn with
  | nil => exact (key f _ hA).1
  | append_singleton l a ih =>
    rw [List.foldl_append]
    simp only [List.foldl_cons, List.foldl_nil]
    have hfin : (Step.mk f (l ++ [a])).final = a := by simp [Step.final]
    rw [hfin]
    have hl := fresh_step d hc' m ⟨f, l⟩ s hf
    have hv := (step_stepped d m ⟨f, l⟩ s).value
    unfold Sto.step at hl hv
    simp only at hl hv
    generalize (l.foldl (fun (s : Sto F) (a : Try F) => (s.regress a.t).iters d m a) ((s.advance f.t).iters d m f)) = s0 at hl hv ⊢
    have := (key a (s0.regress a.t) (fun hu => hl hu)).1
    rw [this, ← hv]
    rfl

/-- **C67**: the line of a capacitor: through the rate at the last voltage. -/
theorem cap_line (d : Desc F) (hc : d.cls ≠ .ind) (m : Method) (p : Step F) (s : Sto F) (v : F) :
    let s' := s.step d m p
    s'.m0.c1 * v + s'.m0.c0 = (s'.i 0).f0 + (s'.i 0).f1 * (v - (s'.y 0).x) := by
  intro s'
  have S := step_stepped d m p s
  have hx : (s'.i 0).x = (s'.y 0).x := by
    change ((s.step d m p).i 0).x = _
    rw [S.rate]
    unfold differentiate
    simp only
    cases usedMethod (s.step d m p).time m <;> rfl
  have : s'.m0 = (s'.i 0).toC := by
    change (s.step d m p).m0 = _
    rw [S.m0]
    unfold line
    cases h : d.cls with
    | ind => exact absurd h hc
    | _ => rfl
  rw [this]
  simp only [FPoly.toC]
  rw [← hx]
  ring

/-- the voltage the current of an element follows: between the controlling nodes for a transcapacitor, else between its own -/
def follows (d : Desc F) (vin vout : F) : F := if d.cls = .tcap then vin else vout

/-- **C67**: what a capacitor or transcapacitor puts on the matrix after a step: a current between its output nodes, that is the
rate of the charge at the voltage it was evaluated at, and moves from there with the voltage it follows and no other. -/
theorem loaded_follows (d : Desc F) (hc : d.cls ≠ .ind) (m : Method) (p : Step F) (s : Sto F) (vin vout : F) :
    let s' := s.step d m p
    s'.loaded d vin vout = (s'.i 0).f0 + (s'.i 0).f1 * (follows d vin vout - (s'.y 0).x) := by
  intro s'
  have h := cap_line d hc m p s (follows d vin vout)
  rw [← h]
  unfold Sto.loaded follows
  cases hcl : d.cls <;> simp [s']

/-- **C67**: the line of an inductor: the current is the one it was evaluated at exactly when the voltage is the rate of the
flux; beside it the voltage follows the slope. -/
theorem ind_line (d : Desc F) (hc : d.cls = .ind) (m : Method) (p : Step F) (s : Sto F) (v c : F) :
    let s' := s.step d m p
    (s'.i 0).f1 ≠ 0 → (c = s'.m0.c1 * v + s'.m0.c0 ↔ v = (s'.i 0).f0 + (s'.i 0).f1 * (c - (s'.y 0).x)) := by
  intro s' hne
  have S := step_stepped d m p s
  have hx : (s'.i 0).x = (s'.y 0).x := by
    change ((s.step d m p).i 0).x = _
    rw [S.rate]
    unfold differentiate
    simp only
    cases usedMethod (s.step d m p).time m <;> rfl
  have h1 : s'.m0 = line d (s'.i 0) := S.m0
  rw [h1]
  have h2 : line d (s'.i 0) = ⟨0, -((s'.i 0).f0 - (s'.i 0).x * (s'.i 0).f1) * (1 / (s'.i 0).f1), 1 / (s'.i 0).f1⟩ := by
    unfold line
    rw [hc]
    simp only
    rw [if_neg (show ¬ (s'.i 0).toC.c1 = 0 from hne)]
    rfl
  rw [h2, ← hx]
  constructor
  · intro h
    rw [h]
    field_simp
    ring
  · intro h
    rw [h]
    field_simp
    ring

/-- the slope of the derivative is not zero where that of the charge is not -/
theorem slope_ne (d : Desc F) (m : Method) (p : Step F) (s : Sto F) (ht : p.final.t ≠ s.time 0) (h : ((s.step d m p).y 0).f1 ≠ 0) :
    ((s.step d m p).i 0).f1 ≠ 0 := by
  have S := step_stepped d m p s
  rw [S.rate]
  unfold differentiate
  simp only
  have hd : (s.step d m p).time 0 - (s.step d m p).time 1 ≠ 0 := by rw [S.t0, S.t1]; exact sub_ne_zero.mpr ht
  cases usedMethod (s.step d m p).time m <;> simp only <;>
    first
    | exact div_ne_zero (mul_ne_zero h (by norm_num)) hd
    | exact div_ne_zero h hd

/-- **C67**: in DC a capacitor carries nothing, and an inductor is `shortckt` ohms. -/
theorem static_line (d : Desc F) (m : Method) (a : Ext F) (s : Sto F) (vin vout : F) :
    let s' := s.doTr d .static m a
    (d.cls ≠ .ind → s'.loaded d vin vout = 0) ∧ (d.cls = .ind → s'.loaded d vin vout = 1 / d.short * vout) := by
  intro s'
  have h : s'.m0 = line d ⟨(s.charge d a).x, 0, 0⟩ := rfl
  constructor
  · intro hc
    unfold Sto.loaded
    rw [h]
    unfold line
    cases hcl : d.cls with
    | ind => exact absurd hcl hc
    | _ => simp [FPoly.toC]
  · intro hc
    unfold Sto.loaded
    rw [h]
    unfold line
    rw [hc]
    simp [FPoly.toC]

/-- **C67**: whatever an element remembers of an earlier transient, after a step of a DC sweep and the advance to the next none of the
currents kept is left over: all are those of the DC solution, that is none, with no slope. -/
theorem dc_flat (d : Desc F) (m : Method) (a : Ext F) (s : Sto F) (k : ℕ) (hk : k < keep) :
    let s' := (s.doTr d .static m a).dcAdvance
    (s'.i k).f0 = 0 ∧ (s'.i k).f1 = 0 ∧ s'.y = (s.doTr d .static m a).y ∧ s'.m0 = (s.doTr d .static m a).m0 := by
  intro s'
  have h : s'.i k = ⟨(s.charge d a).x, 0, 0⟩ := by
    show (if 1 ≤ k ∧ k < keep then (s.doTr d .static m a).i 0 else (s.doTr d .static m a).i k) = _
    split
    · rfl
    · rename_i h
      have : k = 0 := by omega
      rw [this]; rfl
  rw [h]
  exact ⟨rfl, rfl, rfl, rfl⟩

example : (((begin (F := ℚ) ⟨.cap, 1, 1, false, none⟩ 2).advance 3).doTr ⟨.cap, 1, 1, false, none⟩ .dynamic .euler ⟨5, 5⟩).i 0 ≠ ⟨5, 0, 0⟩ := by
  decide +kernel

/-! ## Capacitors with a value or a function, over a whole transient -/

theorem run_last (d : Desc F) (hc : d.cls = .cap ∨ d.cls = .tcap) (m : Method) : ∀ (ps : List (Step F)) (hps : ps ≠ []) (s : Sto F), s.Fresh d →
    (s.run d m ps).2.y 0 = trEval d s.value (ps.getLast hps).final.last.vin := by
  have hc' : d.cls ≠ .vccap := by rcases hc with h | h <;> rw [h] <;> decide
  intro ps
  induction ps with
  | nil => intro h; exact absurd rfl h
  | cons p ps ih =>
    intro hps s hf
    have S := step_stepped d m p s
    cases ps with
    | nil => exact step_charge d hc m p s hf
    | cons p' ps =>
      have := ih (by simp) (s.step d m p) (fresh_step d hc' m p s hf)
      rw [S.value] at this
      exact this

/-- the state after the DC analysis at voltage `a` that begins a transient -/
def start (d : Desc F) (m : Method) (v : F) (a : Ext F) : Sto F := (begin d v).doTr d .static m a

theorem start_fresh (d : Desc F) (hc : d.cls ≠ .vccap) (m : Method) (v : F) (a : Ext F) : (start d m v a).Fresh d :=
  fresh_doTr d hc _ m a _ (fresh_begin d v)

/-- **C67**: a capacitor in a transient with the Euler method: the currents, each at the voltage reached, times the steps are
the charge at the end less the charge in DC. -/
theorem capacitor_euler (d : Desc F) (hc : d.cls = .cap ∨ d.cls = .tcap) (m : Method) (hm : m = .euler ∨ m = .trapeuler) (v : F) (a : Ext F)
    (ps : List (Step F)) (hps : ps ≠ []) (hM : Moves 0 ps) :
    through 0 ((start d m v a).run d m ps).1 = (trEval d v (ps.getLast hps).final.last.vin).f0 - (trEval d v a.vin).f0 := by
  have hc' : d.cls ≠ .vccap := by rcases hc with h | h <;> rw [h] <;> decide
  have B := euler_balance d m hm ps (start d m v a) hM
  have e : (start d m v a).time 0 = 0 := rfl
  rw [e] at B
  rw [B, run_last d hc m ps hps _ (start_fresh d hc' m v a)]
  have : (start d m v a).y 0 = trEval d v a.vin := charge_cap d hc a _ (fresh_begin d v)
  rw [this]
  rfl

/-- **C67**: the same with the trapezoidal method. -/
theorem capacitor_trap (d : Desc F) (hc : d.cls = .cap ∨ d.cls = .tcap) (v : F) (a : Ext F) (p : Step F) (ps : List (Step F))
    (hM : Moves 0 (p :: ps)) :
    ∃ r rs, ((start d .trap v a).run d .trap (p :: ps)).1 = r :: rs ∧
      r.i.f0 * r.t + meanThrough r.t r.i.f0 rs =
        (trEval d v ((p :: ps).getLast (by simp)).final.last.vin).f0 - (trEval d v a.vin).f0 := by
  have hc' : d.cls ≠ .vccap := by rcases hc with h | h <;> rw [h] <;> decide
  obtain ⟨r, rs, h1, h2⟩ := trap_balance d p ps (start d .trap v a) rfl hM
  refine ⟨r, rs, h1, ?_⟩
  have e : (start d .trap v a).time 0 = 0 := rfl
  rw [e, sub_zero] at h2
  rw [h2, run_last d hc .trap (p :: ps) (by simp) _ (start_fresh d hc' .trap v a)]
  have : (start d .trap v a).y 0 = trEval d v a.vin := charge_cap d hc a _ (fresh_begin d v)
  rw [this]
  rfl

/-- **C67**: in AC the capacitance is the slope of the function at the DC voltage. -/
theorem capacitor_ac (d : Desc F) (hc : d.cls = .cap ∨ d.cls = .tcap) (m : Method) (v : F) (a : Ext F)
    (hx : (trEval d v a.vin).x = a.vin) : (start d m v a).ev d = (trEval d v a.vin).f1 := by
  have : (start d m v a).y 0 = trEval d v a.vin := charge_cap d hc a _ (fresh_begin d v)
  unfold Sto.ev
  rw [this, hx]
  unfold trEval
  cases d.fn <;> rfl

/-! ## The capacitors with a control -/

/-- **C67**: VCCAP with a plain value: the capacitance is the value times the control voltage, the charge that times the
output voltage. -/
theorem vccap_charge (d : Desc F) (hc : d.cls = .vccap) (hf : d.fn = none) (m : Method) (p : Step F) (s : Sto F) :
    (s.step d m p).y 0 = ⟨p.final.last.vout, p.final.last.vout * (p.final.last.vin * s.value), p.final.last.vin * s.value⟩ := by
  obtain ⟨s0, h1, h2⟩ := (step_stepped d m p s).charge
  rw [h2]
  unfold Sto.charge trEval
  rw [hc, hf]
  simp only [h1]

/-- **C67 fails**: VCCAP shows another current than it loads: the probe puts the control voltage into the line, the matrix
has the output voltage (d_cap.cc:127-129, e_elemnt.cc:369-374). -/
theorem vccap_probe_off (d : Desc F) (hc : d.cls = .vccap) (s : Sto F) (vin vout : F) :
    s.amps vin - s.loaded d vin vout = s.m0.c1 * (vin - vout) := by
  unfold Sto.amps Sto.loaded
  rw [hc]
  simp only
  ring

/-- **C67 fails**: VCCAP with a function takes `_y[0].f0` for the capacitance, where `f_is_value` has put nothing but the
output offset: the capacitance is `ooffset`, whatever the function (d_cap.cc:121, 189-199, bm.cc:75-84). -/
theorem vccap_function_lost (d : Desc F) (hc : d.cls = .vccap) (mo : Behav.Mods F) (core : F → F × F) (hf : d.fn = some (mo.eval true core))
    (m : Method) (p : Step F) (s : Sto F) :
    (s.step d m p).y 0 = ⟨p.final.last.vout, p.final.last.vout * mo.ooff, mo.ooff⟩ := by
  obtain ⟨s0, h1, h2⟩ := (step_stepped d m p s).charge
  rw [h2]
  unfold Sto.charge trEval
  rw [hc, hf]
  simp [Behav.Mods.eval, Behav.Mods.final, FPoly.scale, FPoly.addC]

/-- **C67 fails**: in AC, VCCAP evaluates its function at the voltage of its output in place of the control
(d_cap.cc:197, bm.cc:174-179). -/
theorem vccap_ac_at_output (d : Desc F) (hc : d.cls = .vccap) (g : F → FPoly F) (hf : d.fn = some g) (m : Method) (v : F) (a : Ext F) :
    (start d m v a).ev d = (g a.vout).f1 := by
  unfold Sto.ev start
  rw [hf]
  simp only
  have : (Sto.doTr d .static m a (begin d v)).y 0 = (begin d v).charge d a := rfl
  rw [this]
  unfold Sto.charge
  rw [hc]

/-- what a function with `f_is_value` leaves: the charge is the output offset alone, the slope is the value -/
theorem value_report (mo : Behav.Mods F) (hic : mo.icNow = none) (core : F → F × F) (x : F) :
    (mo.eval true core x).f0 = mo.ooff ∧
    (mo.eval true core x).f1 = mo.scale * (1 + mo.tc1 * mo.dT + mo.tc2 * mo.dT ^ 2) * (core (x + mo.ioff)).1 := by
  simp only [Behav.Mods.eval, Behav.Mods.final, Behav.Mods.shift, Behav.Mods.temp, hic, if_true, FPoly.scale, FPoly.addC, Option.getD_none]
  constructor <;> ring

/-- **C67 fails**: a transcapacitor with a function never carries anything in a transient, whatever the voltages, the method
and the function: its charge is always `ooffset` (d_cap.cc:89). -/
theorem tcap_function_lost (d : Desc F) (hc : d.cls = .tcap) (mo : Behav.Mods F) (core : F → F × F) (hf : d.fn = some (mo.eval true core))
    (m : Method) (v : F) (a : Ext F) (ps : List (Step F)) (r : Rec F) (hr : r ∈ ((start d m v a).run d m ps).1) : r.i.f0 = 0 := by
  have hq : ∀ x, (trEval d v x).f0 = mo.ooff := by
    intro x
    unfold trEval
    rw [hf]
    simp [Behav.Mods.eval, Behav.Mods.final, FPoly.scale, FPoly.addC]
  have hfr : d.using = true := by simp [Desc.using, hf]
  have F0 : ∀ s : Sto F, s.Fresh d := fun s hu => by rw [hfr] at hu; cases hu
  suffices H : ∀ (ps : List (Step F)) (s : Sto F), s.value = v → (s.y 0).f0 = mo.ooff → ((s.y 1).f0 = mo.ooff ∨ s.time 0 = s.time 1) →
      (s.i 0).f0 = 0 → ∀ r ∈ (s.run d m ps).1, r.i.f0 = 0 by
    have h0 : ((start d m v a).y 0).f0 = mo.ooff := by
      have : (start d m v a).y 0 = trEval d v a.vin := charge_cap d (.inr hc) a _ (F0 _)
      rw [this, hq]
    exact H ps _ rfl h0 (.inr rfl) rfl r hr
  intro ps
  induction ps with
  | nil => intro s _ _ _ _ r hr; cases hr
  | cons p ps ih =>
    intro s hv h0 h1 hi r hr
    have S := step_stepped d m p s
    have hy : ((s.step d m p).y 0).f0 = mo.ooff := by rw [step_charge d (.inr hc) m p s (F0 s), hv, hq]
    have hi0 : ((s.step d m p).i 0).f0 = 0 := by
      rcases h1 with h1 | h1
      · rw [S.rate]
        unfold differentiate
        simp only
        cases usedMethod (s.step d m p).time m <;> simp [hy, S.y1, S.y2, S.i1, h0, h1, hi]
      · rw [first_rate d m p s h1, hy, h0, sub_self, zero_div]
    simp only [Sto.run, List.mem_cons] at hr
    rcases hr with rfl | hr
    · exact hi0
    · exact ih (s.step d m p) (S.value.trans hv) hy (.inl (by rw [S.y1]; exact h0)) hi0 r hr

/-! ## Inductors -/

/-- **C67**: the flux of an inductor after a step is its function at the current it was evaluated at, which is the current
of the line when the voltage is the rate. -/
theorem inductor_step (d : Desc F) (hc : d.cls = .ind) (m : Method) (p : Step F) (s : Sto F) (ht : p.final.t ≠ s.time 0)
    (v : F) (hfix : (s.step d m p).m0.c1 * v + (s.step d m p).m0.c0 = ((s.step d m p).y 0).x) (hL : ((s.step d m p).y 0).f1 ≠ 0) :
    v = ((s.step d m p).i 0).f0 := by
  have := (ind_line d hc m p s v ((s.step d m p).y 0).x (slope_ne d m p s ht hL)).mp hfix.symm
  rw [sub_self, mul_zero, add_zero] at this
  exact this

end

/-! ## The line is the tangent -/

section
open Real

/-- **C67**: the slope that is loaded is the derivative of the rate with respect to the voltage, if the function reports the
derivative of the charge. -/
theorem rate_tangent (q : ℝ → ℝ) (q1 v : ℝ) (hq : HasDerivAt q q1 v) (y i : ℕ → FPoly ℝ) (time : ℕ → ℝ) (m : Method) :
    HasDerivAt (fun u => (differentiate .dynamic (set0 y ⟨u, q u, q1⟩) i time m).f0)
      (differentiate .dynamic (set0 y ⟨v, q v, q1⟩) i time m).f1 v := by
  unfold differentiate
  simp only
  cases usedMethod time m <;> simp only [set0, if_true, if_neg (show (1 : ℕ) ≠ 0 by decide), if_neg (show (2 : ℕ) ≠ 0 by decide)]
  · have := (((hq.sub_const (y 1).f0).const_mul (3/2)).div_const (time 0 - time 1)).sub_const
      ((1/2) * ((y 1).f0 - (y 2).f0) / (time 1 - time 2))
    exact this.congr_deriv (by ring)
  · exact (hq.sub_const (y 1).f0).div_const (time 0 - time 1)
  · have := (((hq.sub_const (y 1).f0).const_mul 2).div_const (time 0 - time 1)).sub_const (i 1).f0
    exact this.congr_deriv (by ring)
  · have := (((hq.sub_const (y 1).f0).const_mul (3/2)).div_const (time 0 - time 1)).sub_const
      ((1/2) * ((y 1).f0 - (y 2).f0) / (time 1 - time 2))
    exact this.congr_deriv (by ring)
  · exact (hq.sub_const (y 1).f0).div_const (time 0 - time 1)

end

/-! ## Examples -/

/-- a step to time `t` with the voltage `v`, after a rejected attempt further on -/
def ex (t v : ℚ) : Step ℚ := ⟨⟨t + 1, [⟨5, 5⟩], ⟨7, 7⟩⟩, [⟨t, [], ⟨v, v⟩⟩]⟩

example : Moves (0 : ℚ) [ex 1 2, ex 3 1] := by
  refine ⟨?_, ?_, trivial⟩ <;> norm_num [ex, Step.final]

example : Even (2 : ℚ) 0 [ex 2 2, ex 4 1] := by
  refine ⟨?_, ?_, trivial⟩ <;> norm_num [ex, Step.final]

/-- 2 farad from 0 to 1 volt: 2 coulomb, by any way -/
example : through 0 ((start ⟨.cap, 1/1000, 0, false, none⟩ .euler (2 : ℚ) ⟨0, 0⟩).run ⟨.cap, 1/1000, 0, false, none⟩ .euler [ex 1 2, ex 3 1]).1 = 2 := by
  rw [capacitor_euler _ (.inl rfl) _ (.inl rfl) _ _ _ (by simp) (by refine ⟨?_, ?_, trivial⟩ <;> norm_num [ex, Step.final])]
  norm_num [ex, Step.final, trEval]

/-- `q = v^2` and its slope, with the trapezoidal method from 1 to 3 volt: 8 coulomb -/
example :
    let d : Desc ℚ := ⟨.cap, 1/1000, 0, false, some fun x => ⟨x, x ^ 2, 2 * x⟩⟩
    ∃ r rs, ((start d .trap 0 ⟨1, 1⟩).run d .trap [ex 1 2, ex 2 3]).1 = r :: rs ∧ r.i.f0 * r.t + meanThrough r.t r.i.f0 rs = 8 := by
  intro d
  obtain ⟨r, rs, h1, h2⟩ := capacitor_trap d (.inl rfl) 0 ⟨1, 1⟩ (ex 1 2) [ex 2 3] (by refine ⟨?_, ?_, trivial⟩ <;> norm_num [ex, Step.final])
  refine ⟨r, rs, h1, h2.trans ?_⟩
  norm_num [ex, Step.final, trEval, d]

/-- a transcapacitor of 2 farad, controlled from 0 to 3 volt in 2 seconds: 3 amperes between its output nodes, whatever the
voltage there -/
example :
    let d : Desc ℚ := ⟨.tcap, 1/1000, 0, false, none⟩
    ((start d .euler 2 ⟨0, 0⟩).step d .euler ⟨⟨2, [], ⟨3, 100⟩⟩, []⟩).loaded d 3 100 = 3 := by decide +kernel

/-- a transcapacitor with the function `5 x`: nothing, while the control goes from 0 to 3 volt; in AC it has 15 -/
example :
    let d : Desc ℚ := ⟨.tcap, 1/1000, 0, false, some ((⟨1, 0, 0, 0, 0, 0, none⟩ : Behav.Mods ℚ).eval true fun x => (5 * x, 5))⟩
    (∀ r ∈ ((start d .trap 0 ⟨0, 0⟩).run d .trap [ex 1 2, ex 2 3]).1, r.i.f0 = 0) ∧ (start d .trap 0 ⟨3, 0⟩).ev d = 15 := by
  intro d
  constructor
  · intro r hr
    exact tcap_function_lost d rfl _ _ rfl .trap 0 _ _ r hr
  · rw [capacitor_ac d (.inr rfl) .trap 0 ⟨3, 0⟩ (by simp [d, trEval, Behav.Mods.eval, Behav.Mods.final, FPoly.scale, FPoly.addC, Behav.Mods.shift])]
    norm_num [d, trEval, Behav.Mods.eval, Behav.Mods.final, FPoly.scale, FPoly.addC, Behav.Mods.shift, Behav.Mods.temp]

/-- VCCAP with the function `5 x` in AC: 0 at the output 0, where the control is 3 -/
example :
    let d : Desc ℚ := ⟨.vccap, 1/1000, 0, false, some ((⟨1, 0, 0, 0, 0, 0, none⟩ : Behav.Mods ℚ).eval true fun x => (5 * x, 5))⟩
    (start d .trap 0 ⟨3, 0⟩).ev d = 0 := by
  intro d
  rw [vccap_ac_at_output d rfl _ rfl]
  norm_num [Behav.Mods.eval, Behav.Mods.final, FPoly.scale, FPoly.addC, Behav.Mods.shift]

/-- an inductor of 2 henry, one step of 1 second at 3 volt: after two evaluations it has 3/2 ampere -/
example :
    let d : Desc ℚ := ⟨.ind, 1/1000, 0, false, none⟩
    let s := (start d .euler 2 ⟨0, 0⟩).step d .euler ⟨⟨1, [⟨3, 3⟩], ⟨3, 3⟩⟩, []⟩
    (s.y 0).x = 3/2 ∧ s.m0.c1 * 3 + s.m0.c0 = 3/2 ∧ (s.i 0).f0 = 3 := by
  intro d s
  norm_num [s, d, start, begin, Sto.step, Sto.iters, Sto.doTr, Sto.advance, Sto.charge, Desc.using, set0, shift_zero, shift_one, shift_two, line,
    differentiate, usedMethod, FPoly.toC]

end Gnucap.Stor
