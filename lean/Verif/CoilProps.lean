import Mathlib.Tactic.LinearCombination
import Mathlib.Tactic.NormNum
import Verif.CoilModel
import Verif.IntegProps
import Verif.ZProbe

/-!
# C61: coupled inductors

Specification: a winding through whose flux `M * j` a voltage is induced is a plain storage element (`Ref`), the same
differentiation formula applied to the flux `M * j` of the present and the past steps.  A coil coupled to others has the
voltage of its own winding plus the voltages of the reference windings of the other coils' currents.
-/
set_option linter.unusedSectionVars false
set_option linter.unusedSimpArgs false
namespace Gnucap.Coil
open Gnucap.Mat Gnucap.Integ Gnucap.Load Gnucap.Elem

variable {F : Type _} [Field F] [DecidableEq F]

/-! ## specification -/

/-- a flux history and the voltages recorded with it -/
structure Ref (F : Type _) where
  y : ℕ → FPoly F
  i : ℕ → FPoly F
  time : ℕ → F

/-- The winding as a plain storage element; `cur` selects the current it carries. -/
def Ref.step (m : Method) (cur : F → F → F) (s : Ref F) : Ev F → Ref F
  | .begin _ => ⟨fun _ => ⟨0, 0, 0⟩, fun _ => ⟨0, 0, 0⟩, fun _ => 0⟩
  | .dcAdvance => { s with i := level s.i }
  | .advance t => ⟨shift s.y, shift s.i, set0 (shift s.time) t⟩
  | .regress t => { s with time := set0 s.time t }
  | .eval ph lm j1 j2 =>
    let j := cur j1 j2
    let y := set0 s.y ⟨j, lm * j, lm⟩
    { s with y := y, i := set0 s.i (differentiate ph y s.i s.time m) }

/-- The voltage of the winding if its current were `j`: the formula applied to the flux `lm * j` and the past. -/
def Ref.volts (ph : Phase) (m : Method) (lm j : F) (s : Ref F) : F :=
  (differentiate ph (set0 s.y ⟨j, lm * j, lm⟩) s.i s.time m).f0

/-- What calls are legal: steps forward so far since `tr_begin`, and whether the present step has been evaluated. -/
def legal : ℕ × Bool → Ev F → Option (ℕ × Bool)
  | _, .begin _ => some (0, false)
  | (a, e), .dcAdvance => if a = 0 then some (a, e) else none
  | (a, e), .advance _ => if e then some (a + 1, false) else none
  | (a, _), .regress _ => if 1 ≤ a then some (a, false) else none
  | (a, _), .eval .static _ _ _ => if a = 0 then some (a, true) else none
  | (a, _), .eval .dynamic _ _ _ => if 1 ≤ a then some (a, true) else none
  | (a, _), .eval .restore _ _ _ => some (a, true)

/-- a sequence of calls -/
def legalRun : List (Ev F) → ℕ × Bool → Option (ℕ × Bool)
  | [], st => some st
  | e :: r, st => (legal st e).bind (legalRun r)

def run (linear : F) (m : Method) (evs : List (Ev F)) (s : Mut F) : Mut F := evs.foldl (step linear m) s
def Ref.run (m : Method) (cur : F → F → F) (evs : List (Ev F)) (s : Ref F) : Ref F := evs.foldl (Ref.step m cur) s

/-! ## refinement: the three histories of the mutual inductance are those of two windings -/

/-- what the three histories have to do with the windings -/
structure Rel (st : ℕ × Bool) (s : Mut F) (rf rr : Ref F) : Prop where
  loss : s.loss = 1
  tf : s.time = rf.time
  tr : s.time = rr.time
  zero : ∀ k, st.1 ≤ k → s.time k = 0
  fi : ∀ k, s.fi k = (rf.i k).neg
  ri : ∀ k, s.ri k = (rr.i k).neg
  i : ∀ k, (s.i k).x = (s.fi k).x - (s.ri k).x ∧ (s.i k).f0 = (s.fi k).f0 - (s.ri k).f0 ∧ (s.i k).f1 = (s.fi k).f1
  same : ∀ k, (s.fi k).f1 = (s.ri k).f1
  hist : ∀ k, k < keep → (1 ≤ k ∧ k ≤ st.1 ∨ k = 0 ∧ st.2 = true) →
    s.yf k = (rf.y k).neg ∧ s.yr k = (rr.y k).neg ∧ (s.y k).f0 = (s.yf k).f0 - (s.yr k).f0

/-- What is loaded belongs to the windings. -/
structure Fresh (s : Mut F) (rf rr : Ref F) : Prop where
  c1f : s.c1 = (rf.i 0).toC.c1
  c1r : s.c1 = (rr.i 0).toC.c1
  mf : s.mf - s.c0 = (rr.i 0).toC.c0
  mr : s.mr + s.c0 = (rf.i 0).toC.c0

theorem rel_init (linear lm : F) (m : Method) (s : Mut F) (rf rr : Ref F) (c1 c2 : F → F → F) :
    Rel (0, false) (step linear m s (.begin lm)) (rf.step m c1 (.begin lm)) (rr.step m c2 (.begin lm)) where
  loss := rfl
  tf := rfl
  tr := rfl
  zero _ _ := rfl
  fi k := by simp [step, trBegin, Ref.step, FPoly.neg]
  ri k := by simp [step, trBegin, Ref.step, FPoly.neg]
  i k := by simp [step, trBegin]
  same k := by simp [step, trBegin]
  hist k _ h := by simp at h; omega

theorem diff_neg (ph : Phase) (q q' i i' : ℕ → FPoly F) (time : ℕ → F) (m : Method)
    (h0 : q 0 = (q' 0).neg) (h1 : (q 1).f0 = -(q' 1).f0) (h2 : usedMethod time m ≠ .euler → (q 2).f0 = -(q' 2).f0)
    (hi : ∀ k, i k = (i' k).neg) : differentiate ph q i time m = (differentiate ph q' i' time m).neg := by
  cases ph with
  | static => simp [differentiate, h0, FPoly.neg]
  | restore => simp [differentiate, hi]
  | dynamic =>
    simp only [differentiate]
    rcases h : usedMethod time m with _ | _ | _ | _ | _ <;>
      (first
        | (have h2' := h2 (by rw [h]; decide)
           simp only [h0, h1, h2', hi, FPoly.neg, FPoly.mk.injEq]; refine ⟨trivial, by ring, by ring⟩)
        | (simp only [h0, h1, hi, FPoly.neg, FPoly.mk.injEq]; refine ⟨trivial, by ring, by ring⟩))

theorem diff_sub (ph : Phase) (q qf qr i fi ri : ℕ → FPoly F) (time : ℕ → F) (m : Method)
    (h0 : (q 0).x = (qf 0).x - (qr 0).x ∧ (q 0).f0 = (qf 0).f0 - (qr 0).f0 ∧ (q 0).f1 = (qf 0).f1)
    (hs : (qf 0).f1 = (qr 0).f1)
    (h1 : ph = .dynamic → (q 1).f0 = (qf 1).f0 - (qr 1).f0)
    (h2 : ph = .dynamic → usedMethod time m ≠ .euler → (q 2).f0 = (qf 2).f0 - (qr 2).f0)
    (hi : ∀ k, (i k).x = (fi k).x - (ri k).x ∧ (i k).f0 = (fi k).f0 - (ri k).f0 ∧ (i k).f1 = (fi k).f1)
    (hsi : ∀ k, (fi k).f1 = (ri k).f1) :
    let d := differentiate ph q i time m
    let f := differentiate ph qf fi time m
    let r := differentiate ph qr ri time m
    (d.x = f.x - r.x ∧ d.f0 = f.f0 - r.f0 ∧ d.f1 = f.f1) ∧ f.f1 = r.f1 := by
  cases ph with
  | static => simp [differentiate, h0.1]
  | restore => exact ⟨hi 0, hsi 0⟩
  | dynamic =>
    have h1 := h1 rfl
    have h2 := h2 rfl
    simp only [differentiate]
    rcases h : usedMethod time m with _ | _ | _ | _ | _ <;>
      (first
        | (have h2' := h2 (by rw [h]; decide)
           simp only [h0.1, h0.2.1, h0.2.2, h1, h2', (hi 1).2.1, hs]; refine ⟨⟨trivial, by ring, trivial⟩, trivial⟩)
        | (simp only [h0.1, h0.2.1, h0.2.2, h1, (hi 1).2.1, hs]; refine ⟨⟨trivial, by ring, trivial⟩, trivial⟩))

theorem diff_neg' (ph : Phase) (q q' i i' : ℕ → FPoly F) (time : ℕ → F) (m : Method)
    (h0 : q 0 = (q' 0).neg) (h1 : ph = .dynamic → (q 1).f0 = -(q' 1).f0)
    (h2 : ph = .dynamic → usedMethod time m ≠ .euler → (q 2).f0 = -(q' 2).f0)
    (hi : ∀ k, i k = (i' k).neg) : differentiate ph q i time m = (differentiate ph q' i' time m).neg := by
  cases ph with
  | static => simp [differentiate, h0, FPoly.neg]
  | restore => simp [differentiate, hi]
  | dynamic => exact diff_neg .dynamic q q' i i' time m h0 (h1 rfl) (h2 rfl) hi

theorem set0_zero {α : Type _} (a : ℕ → α) (v : α) : set0 a v 0 = v := rfl

theorem rel_step (linear : F) (m : Method) (st st' : ℕ × Bool) (s : Mut F) (rf rr : Ref F) (e : Ev F)
    (h : Rel st s rf rr) (hl : legal st e = some st') :
    Rel st' (step linear m s e) (rf.step m (fun j _ => j) e) (rr.step m (fun _ j => j) e) ∧
    (∀ ph lm j1 j2, e = .eval ph lm j1 j2 →
      Fresh (step linear m s e) (rf.step m (fun j _ => j) e) (rr.step m (fun _ j => j) e)) := by
  obtain ⟨a, ev⟩ := st
  cases e with
  | begin lm =>
    simp only [legal, Option.some.injEq] at hl
    subst hl
    exact ⟨rel_init linear lm m s rf rr _ _, by intros; contradiction⟩
  | dcAdvance =>
    simp only [legal] at hl
    split at hl
    · cases hl
      refine ⟨⟨h.loss, h.tf, h.tr, h.zero, ?_, ?_, ?_, ?_, h.hist⟩, by intros; contradiction⟩
      · intro k; simp only [step, dcAdvance, Ref.step, level]; split <;> exact h.fi _
      · intro k; simp only [step, dcAdvance, Ref.step, level]; split <;> exact h.ri _
      · intro k; simp only [step, dcAdvance, level]; split <;> exact h.i _
      · intro k; simp only [step, dcAdvance, level]; split <;> exact h.same _
    · cases hl
  | advance t =>
    simp only [legal] at hl
    split at hl
    · rename_i hev
      cases hl
      refine ⟨⟨h.loss, ?_, ?_, ?_, ?_, ?_, ?_, ?_, ?_⟩, by intros; contradiction⟩
      · simp only [step, trAdvance, Ref.step, h.tf]
      · simp only [step, trAdvance, Ref.step, h.tr]
      · intro k hk
        simp only at hk
        simp only [step, trAdvance, set0, if_neg (by omega : k ≠ 0), shift_spec]
        split
        · exact h.zero _ (by simp only; omega)
        · exact h.zero _ (by simp only; omega)
      · intro k; simp only [step, trAdvance, Ref.step, shift_spec]; split <;> exact h.fi _
      · intro k; simp only [step, trAdvance, Ref.step, shift_spec]; split <;> exact h.ri _
      · intro k; simp only [step, trAdvance, shift_spec]; split <;> exact h.i _
      · intro k; simp only [step, trAdvance, shift_spec]; split <;> exact h.same _
      · intro k hk hc
        have hk1 : 1 ≤ k := by rcases hc with hc | hc <;> simp at hc; omega
        simp only [step, trAdvance, Ref.step, shift_spec, if_pos (And.intro hk1 hk)]
        apply h.hist (k - 1) (by omega)
        rcases hc with hc | hc
        · simp only at hc ⊢
          by_cases h0 : k = 1
          · exact Or.inr ⟨by omega, hev⟩
          · exact Or.inl ⟨by omega, by omega⟩
        · simp at hc
    · cases hl
  | regress t =>
    simp only [legal] at hl
    split at hl
    · rename_i ha
      cases hl
      refine ⟨⟨h.loss, ?_, ?_, ?_, h.fi, h.ri, h.i, h.same, ?_⟩, by intros; contradiction⟩
      · simp only [step, trRegress, Ref.step, h.tf]
      · simp only [step, trRegress, Ref.step, h.tr]
      · intro k hk
        simp only at hk
        simp only [step, trRegress, set0, if_neg (by omega : k ≠ 0)]
        exact h.zero k hk
      · intro k hk hc
        rcases hc with hc | hc
        · exact h.hist k hk (Or.inl hc)
        · simp at hc
    · cases hl
  | eval ph lm j1 j2 =>
    have hst : st' = (a, true) ∧ (ph = .dynamic → 1 ≤ a) := by
      cases ph <;> simp only [legal] at hl
      · split at hl <;> cases hl; exact ⟨rfl, by simp⟩
      · cases hl; exact ⟨rfl, by simp⟩
      · split at hl <;> cases hl; exact ⟨rfl, by intro; assumption⟩
    obtain ⟨rfl, hdyn⟩ := hst
    have H1 : ph = .dynamic → s.yf 1 = (rf.y 1).neg ∧ s.yr 1 = (rr.y 1).neg ∧ (s.y 1).f0 = (s.yf 1).f0 - (s.yr 1).f0 :=
      fun hp => h.hist 1 (by decide) (Or.inl ⟨le_refl _, hdyn hp⟩)
    have H2 : ph = .dynamic → usedMethod s.time m ≠ .euler →
        s.yf 2 = (rf.y 2).neg ∧ s.yr 2 = (rr.y 2).neg ∧ (s.y 2).f0 = (s.yf 2).f0 - (s.yr 2).f0 := by
      intro hp hu
      refine h.hist 2 (by decide) (Or.inl ⟨by omega, ?_⟩)
      by_contra hc
      apply hu
      unfold usedMethod
      simp only at hc
      rw [if_pos]
      rw [h.zero 1 (by simp only; omega), h.zero 2 (by simp only; omega)]
    have hf : differentiate ph (set0 s.yf ⟨j1, j1 * -lm, -lm⟩) s.fi s.time m =
        (differentiate ph (set0 rf.y ⟨j1, lm * j1, lm⟩) rf.i rf.time m).neg := by
      rw [← h.tf]
      apply diff_neg' ph
      · simp [set0, FPoly.neg, mul_comm]
      · intro hp; simp [set0, (H1 hp).1, FPoly.neg]
      · intro hp hu; simp [set0, (H2 hp hu).1, FPoly.neg]
      · exact h.fi
    have hr : differentiate ph (set0 s.yr ⟨j2, j2 * -lm, -lm⟩) s.ri s.time m =
        (differentiate ph (set0 rr.y ⟨j2, lm * j2, lm⟩) rr.i rr.time m).neg := by
      rw [← h.tr]
      apply diff_neg' ph
      · simp [set0, FPoly.neg, mul_comm]
      · intro hp; simp [set0, (H1 hp).2.1, FPoly.neg]
      · intro hp hu; simp [set0, (H2 hp hu).2.1, FPoly.neg]
      · exact h.ri
    have hd := diff_sub ph (set0 s.y ⟨j1 - j2, (j1 - j2) * -lm, -lm⟩) (set0 s.yf ⟨j1, j1 * -lm, -lm⟩)
      (set0 s.yr ⟨j2, j2 * -lm, -lm⟩) s.i s.fi s.ri s.time m
      ⟨rfl, by simp only [set0, if_true]; ring, rfl⟩ rfl
      (by intro hp; simp [set0, (H1 hp).2.2]) (by intro hp hu; simp [set0, (H2 hp hu).2.2]) h.i h.same
    simp only at hd
    refine ⟨⟨h.loss, h.tf, h.tr, h.zero, ?_, ?_, ?_, ?_, ?_⟩, ?_⟩
    · intro k
      by_cases hk : k = 0
      · subst hk; simp only [step, doTrLast, Ref.step, set0, if_true]; exact hf
      · simp only [step, doTrLast, Ref.step, set0, if_neg hk]; exact h.fi k
    · intro k
      by_cases hk : k = 0
      · subst hk; simp only [step, doTrLast, Ref.step, set0, if_true]; exact hr
      · simp only [step, doTrLast, Ref.step, set0, if_neg hk]; exact h.ri k
    · intro k
      by_cases hk : k = 0
      · subst hk; simp only [step, doTrLast, set0, if_true]; exact hd.1
      · simp only [step, doTrLast, set0, if_neg hk]; exact h.i k
    · intro k
      by_cases hk : k = 0
      · subst hk; simp only [step, doTrLast, set0, if_true]; exact hd.2
      · simp only [step, doTrLast, set0, if_neg hk]; exact h.same k
    · intro k hk hc
      by_cases hk0 : k = 0
      · subst hk0
        simp only [step, doTrLast, Ref.step, set0, if_true, FPoly.neg]
        refine ⟨by simp [mul_comm], by simp [mul_comm], by ring⟩
      · have := h.hist k hk (by rcases hc with hc | hc; exact Or.inl hc; exact absurd hc.1 hk0)
        simp only [step, doTrLast, Ref.step, set0, if_neg hk0]
        exact this
    · intro ph' lm' j1' j2' _
      have l1 := h.loss
      obtain ⟨⟨d1, d2, d3⟩, d4⟩ := hd
      constructor <;> simp only [step, doTrLast, Ref.step, set0_zero, FPoly.toC, l1, d1, d2, d3]
      · rw [hf]; simp [FPoly.neg]
      · rw [d4, hr]; simp [FPoly.neg]
      · have : ∀ (f r : FPoly F), f.f1 = r.f1 → -1 * 1 * (f.f0 - f.x * f.f1) - -1 * 1 * (f.f0 - r.f0 - (f.x - r.x) * f.f1) =
            -(r.f0 - r.x * r.f1) := by
          intro f r h; rw [h]; ring
        rw [this _ _ d4, hr]; simp [FPoly.neg]; ring
      · have : ∀ (f r : FPoly F), f.f1 = r.f1 → -1 * 1 * (r.f0 - r.x * r.f1) + -1 * 1 * (f.f0 - r.f0 - (f.x - r.x) * f.f1) =
            -(f.f0 - f.x * f.f1) := by
          intro f r h; rw [h]; ring
        rw [this _ _ d4, hf]; simp [FPoly.neg]; ring

/-- every legal sequence of calls -/
theorem rel_run (linear : F) (m : Method) : ∀ (evs : List (Ev F)) (st st' : ℕ × Bool) (s : Mut F) (rf rr : Ref F),
    Rel st s rf rr → legalRun evs st = some st' →
    Rel st' (run linear m evs s) (rf.run m (fun j _ => j) evs) (rr.run m (fun _ j => j) evs)
  | [], st, st', s, rf, rr, h, hl => by cases hl; exact h
  | e :: r, st, st', s, rf, rr, h, hl => by
    simp only [legalRun] at hl
    cases hc : legal st e with
    | none => rw [hc] at hl; cases hl
    | some st1 =>
      rw [hc] at hl
      exact rel_run linear m r st1 st' _ _ _ (rel_step linear m st st1 s rf rr e h hc).1 hl

/-- C61, histories: whatever was in the element before, after `tr_begin` and any legal sequence of calls ending in an
evaluation, what the mutual inductance loads is that of two reference windings, one carrying each current. -/
theorem mutual_refines (linear lm0 : F) (m : Method) (evs : List (Ev F)) (ph : Phase) (lm j1 j2 : F) (st : ℕ × Bool)
    (s : Mut F) (r0 : Ref F)
    (hl : legalRun (.begin lm0 :: (evs ++ [.eval ph lm j1 j2])) (0, false) = some st) :
    let all := .begin lm0 :: (evs ++ [.eval ph lm j1 j2])
    Fresh (run linear m all s) (r0.run m (fun j _ => j) all) (r0.run m (fun _ j => j) all) := by
  intro all
  have split : ∀ (l : List (Ev F)) (e : Ev F) (st st' : ℕ × Bool), legalRun (l ++ [e]) st = some st' →
      ∃ st1, legalRun l st = some st1 ∧ legal st1 e = some st' := by
    intro l e
    induction l with
    | nil =>
      intro st st' h
      simp only [List.nil_append, legalRun] at h
      cases hc : legal st e with
      | none => rw [hc] at h; cases h
      | some x => rw [hc] at h; exact ⟨st, rfl, h ▸ hc⟩
    | cons a l ih =>
      intro st st' h
      simp only [List.cons_append, legalRun] at h ⊢
      cases hc : legal st a with
      | none => rw [hc] at h; cases h
      | some x => rw [hc] at h; exact ih x st' h
  have hl' : legalRun (evs ++ [.eval ph lm j1 j2]) (0, false) = some st := hl
  obtain ⟨st1, h1, h2⟩ := split evs _ _ _ hl'
  have hr := rel_run linear m evs (0, false) st1 _ _ _
    (rel_init linear lm0 m s r0 r0 (fun j _ => j) (fun _ j => j)) h1
  have := (rel_step linear m st1 st _ _ _ (.eval ph lm j1 j2) hr h2).2 ph lm j1 j2 rfl
  simpa only [all, run, Ref.run, List.foldl_cons, List.foldl_append, List.foldl_nil] using this

/-- The voltage line of a winding after its evaluation is the integration formula, at every current. -/
theorem winding_line (m : Method) (cur : F → F → F) (ph : Phase) (hph : ph ≠ .restore) (lm j1 j2 j : F) (s : Ref F) :
    let s' := s.step m cur (.eval ph lm j1 j2)
    (s'.i 0).toC.c0 + (s'.i 0).toC.c1 * j = s.volts ph m lm j := by
  intro s'
  simp only [s', Ref.step, Ref.volts, set0_zero]
  cases ph with
  | restore => exact absurd rfl hph
  | static => simp [differentiate, FPoly.toC]
  | dynamic =>
    simp only [differentiate]
    rcases usedMethod s.time m with _ | _ | _ | _ | _ <;>
      simp only [FPoly.toC, set0, if_true, one_ne_zero, if_false, (by decide : (2 : ℕ) ≠ 0)] <;> ring

/-! ## the equations -/

/-- how much the equation of row `r` is violated by `x` -/
def residual (n : ℕ) (loads : List (Kind × F)) (r : ℕ) (x : ℕ → F) : F :=
  ∑ c ∈ Finset.Icc 1 n, acM loads r c * x c - acI loads r

theorem residual_append (n : ℕ) (l l' : List (Kind × F)) (r : ℕ) (x : ℕ → F) :
    residual n (l ++ l') r x = residual n l r x + residual n l' r x := by
  simp only [residual, acM, acI, List.map_append, List.sum_append, add_mul, Finset.sum_add_distrib]
  ring

theorem residual_nil (n : ℕ) (r : ℕ) (x : ℕ → F) : residual n ([] : List (Kind × F)) r x = 0 := by
  simp [residual, acM, acI]

theorem residual_cons (n : ℕ) (k : Kind) (d : F) (l : List (Kind × F)) (r : ℕ) (x : ℕ → F) :
    residual n ((k, d) :: l) r x =
      d * (∑ c ∈ Finset.Icc 1 n, coefM k r c * x c - coefI k r) + residual n l r x := by
  simp only [residual, acM, acI, List.map_cons, List.sum_cons, add_mul, Finset.sum_add_distrib, mul_sub, Finset.mul_sum,
    mul_assoc]
  ring

theorem inc_self (p : ℕ) (hp : p ≠ 0) : (inc p p : F) = 1 := by simp [inc, hp]
theorem inc_ne (p r : ℕ) (h : r ≠ p) : (inc p r : F) = 0 := by simp [inc, h]

theorem sum_diff (n p q : ℕ) (hp : p ≤ n) (hq : q ≤ n) (w : F) (x : ℕ → F) :
    ∑ c ∈ Finset.Icc 1 n, w * (inc p c - inc q c) * x c = w * (volt x p - volt x q) := by
  rw [← sum_inc n p hp, ← sum_inc n q hq, ← Finset.sum_sub_distrib, Finset.mul_sum]
  exact Finset.sum_congr rfl fun c _ => by ring

theorem sum_one (n p : ℕ) (hp : p ≤ n) (w : F) (x : ℕ → F) :
    ∑ c ∈ Finset.Icc 1 n, w * inc p c * x c = w * volt x p := by
  rw [← sum_inc n p hp, Finset.mul_sum]
  exact Finset.sum_congr rfl fun c _ => by ring

/-- the row of a coil's own current node -/
theorem coil_row (n : ℕ) (i0 : FPoly F) (o1 o2 p : ℕ) (h1 : o1 ≤ n) (h2 : o2 ≤ n) (hp : p ≤ n) (hp0 : p ≠ 0)
    (hne1 : o1 ≠ p) (hne2 : o2 ≠ p) (x : ℕ → F) :
    residual n (coilLoads 1 i0 o1 o2 p) p x = volt x o1 - volt x o2 - (i0.toC.c0 + i0.toC.c1 * x p) := by
  have hx : volt x p = x p := by simp [volt, hp0]
  simp only [coilLoads, residual_cons, residual_nil, coefM, coefI, inc_self p hp0, inc_ne o1 p hne1.symm,
    inc_ne o2 p hne2.symm, sub_self, zero_mul, zero_add, Finset.sum_const_zero]
  rw [sum_diff n o1 o2 h1 h2, sum_one n p hp, hx]
  ring

/-- the rows of its terminals: the current leaves the one and enters the other -/
theorem coil_terminal_row (n : ℕ) (i0 : FPoly F) (o1 o2 p r : ℕ) (hp : p ≤ n) (hp0 : p ≠ 0) (hr : r ≠ p) (x : ℕ → F) :
    residual n (coilLoads 1 i0 o1 o2 p) r x = (inc o1 r - inc o2 r) * x p := by
  have hx : volt x p = x p := by simp [volt, hp0]
  simp only [coilLoads, residual_cons, residual_nil, coefM, coefI, inc_ne p r hr, zero_mul, add_zero,
    Finset.sum_const_zero, sub_zero, mul_zero]
  rw [sum_one n p hp, hx]
  ring

/-- what a coupling adds to the row of its first coil, of its second coil, and of any other node -/
theorem mutual_row (n : ℕ) (s : Mut F) (rf rr : Ref F) (h : Fresh s rf rr) (a b : ℕ) (ha : a ≤ n) (hb : b ≤ n)
    (ha0 : a ≠ 0) (hb0 : b ≠ 0) (hab : a ≠ b) (x : ℕ → F) :
    residual n (s.loads a b) a x = -((rr.i 0).toC.c0 + (rr.i 0).toC.c1 * x b) ∧
    residual n (s.loads a b) b x = -((rf.i 0).toC.c0 + (rf.i 0).toC.c1 * x a) ∧
    ∀ r, r ≠ a → r ≠ b → residual n (s.loads a b) r x = 0 := by
  have hxa : volt x a = x a := by simp [volt, ha0]
  have hxb : volt x b = x b := by simp [volt, hb0]
  have key : ∀ r, residual n (s.loads a b) r x =
      s.c1 * (-(inc a r * x b + inc b r * x a)) - s.c0 * (inc b r - inc a r) - s.mr * inc b r - s.mf * inc a r := by
    intro r
    simp only [Mut.loads, residual_cons, residual_nil, coefM, coefI, zero_mul, Finset.sum_const_zero]
    have : ∑ c ∈ Finset.Icc 1 n, -(inc a r * inc b c + inc b r * inc a c) * x c = -(inc a r * x b + inc b r * x a) := by
      rw [← hxb, ← hxa, ← sum_one n b hb, ← sum_one n a ha, ← Finset.sum_add_distrib, ← Finset.sum_neg_distrib]
      exact Finset.sum_congr rfl fun c _ => by ring
    rw [this]
    ring
  refine ⟨?_, ?_, ?_⟩
  · rw [key, inc_self a ha0, inc_ne b a hab, ← h.mf, ← h.c1r]; ring
  · rw [key, inc_self b hb0, inc_ne a b hab.symm, ← h.mr, ← h.c1f]; ring
  · intro r h1 h2
    rw [key, inc_ne a r h1, inc_ne b r h2]; ring

/-- a coupling in the circuit, with the reference windings that carry the two currents -/
structure At (F : Type _) where
  s : Mut F
  a : ℕ
  b : ℕ
  rf : Ref F
  rr : Ref F

/-- what the other coil's current induces in the coil with current node `p` -/
def At.induced (k : At F) (p : ℕ) (x : ℕ → F) : F :=
  if p = k.a then (k.rr.i 0).toC.c0 + (k.rr.i 0).toC.c1 * x k.b
  else if p = k.b then (k.rf.i 0).toC.c0 + (k.rf.i 0).toC.c1 * x k.a else 0

/-- C61, equations: the row of a coil with any number of couplings, to any other coils, says that its voltage is its own
winding's plus all that is induced. -/
theorem coupled_coil_equation (n : ℕ) (i0 : FPoly F) (o1 o2 p : ℕ) (h1 : o1 ≤ n) (h2 : o2 ≤ n) (hp : p ≤ n) (hp0 : p ≠ 0)
    (hne1 : o1 ≠ p) (hne2 : o2 ≠ p) (ks : List (At F))
    (hk : ∀ k ∈ ks, Fresh k.s k.rf k.rr ∧ k.a ≤ n ∧ k.b ≤ n ∧ k.a ≠ 0 ∧ k.b ≠ 0 ∧ k.a ≠ k.b) (x : ℕ → F) :
    residual n (coilLoads 1 i0 o1 o2 p ++ ks.flatMap fun k => k.s.loads k.a k.b) p x = 0 ↔
      volt x o1 - volt x o2 = i0.toC.c0 + i0.toC.c1 * x p + (ks.map fun k => k.induced p x).sum := by
  have hs : ∀ ks : List (At F), (∀ k ∈ ks, Fresh k.s k.rf k.rr ∧ k.a ≤ n ∧ k.b ≤ n ∧ k.a ≠ 0 ∧ k.b ≠ 0 ∧ k.a ≠ k.b) →
      residual n (ks.flatMap fun k => k.s.loads k.a k.b) p x = -(ks.map fun k => k.induced p x).sum := by
    intro ks
    induction ks with
    | nil => intro _; simp [residual_nil]
    | cons k r ih =>
      intro hk
      obtain ⟨f, g1, g2, g3, g4, g5⟩ := hk k (List.mem_cons_self ..)
      obtain ⟨m1, m2, m3⟩ := mutual_row n k.s k.rf k.rr f k.a k.b g1 g2 g3 g4 g5 x
      rw [List.flatMap_cons, residual_append, ih fun k hk' => hk k (List.mem_cons_of_mem _ hk'), List.map_cons, List.sum_cons]
      have : residual n (k.s.loads k.a k.b) p x = -k.induced p x := by
        unfold At.induced
        split
        · rename_i e; rw [e]; exact m1
        · split
          · rename_i e; rw [e]; exact m2
          · rename_i e1 e2; rw [m3 p e1 e2, neg_zero]
      rw [this]; ring
  rw [residual_append, coil_row n i0 o1 o2 p h1 h2 hp hp0 hne1 hne2, hs ks hk]
  constructor
  · intro h; linear_combination h
  · intro h; linear_combination h

/-- C61, AC: two coupled coils satisfy `v1 = jω (L1 j1 + M j2)`, `v2 = jω (L2 j2 + M j1)`. -/
theorem coupled_ac (n : ℕ) (l1 l2 lm jw : F) (o1 o2 p u1 u2 q : ℕ) (h1 : o1 ≤ n) (h2 : o2 ≤ n) (hu1 : u1 ≤ n)
    (hu2 : u2 ≤ n) (hp : p ≤ n) (hq : q ≤ n) (hp0 : p ≠ 0) (hq0 : q ≠ 0) (hpq : p ≠ q)
    (hd : o1 ≠ p ∧ o2 ≠ p ∧ u1 ≠ p ∧ u2 ≠ p ∧ o1 ≠ q ∧ o2 ≠ q ∧ u1 ≠ q ∧ u2 ≠ q) (x : ℕ → F) :
    let loads := coilAcLoads 1 l1 jw o1 o2 p ++ coilAcLoads 1 l2 jw u1 u2 q ++ mutAcLoads 1 lm jw p q
    (residual n loads p x = 0 ↔ volt x o1 - volt x o2 = jw * (l1 * x p + lm * x q)) ∧
    (residual n loads q x = 0 ↔ volt x u1 - volt x u2 = jw * (l2 * x q + lm * x p)) := by
  intro loads
  have hxp : volt x p = x p := by simp [volt, hp0]
  have hxq : volt x q = x q := by simp [volt, hq0]
  obtain ⟨d1, d2, d3, d4, d5, d6, d7, d8⟩ := hd
  have hc : ∀ a b, ∑ c ∈ Finset.Icc 1 n, -(a * inc q c + b * inc p c) * x c = -(a * x q + b * x p) := by
    intro a b
    rw [← hxp, ← hxq, ← sum_one n p hp, ← sum_one n q hq, ← Finset.sum_add_distrib, ← Finset.sum_neg_distrib]
    exact Finset.sum_congr rfl fun c _ => by ring
  constructor
  · simp only [loads, coilAcLoads, mutAcLoads, residual_append, residual_cons, residual_nil, coefM, coefI, inc_self p hp0,
      inc_ne q p hpq, inc_ne o1 p d1.symm, inc_ne o2 p d2.symm, inc_ne u1 p d3.symm, inc_ne u2 p d4.symm, sub_self, zero_mul,
      zero_add, add_zero, Finset.sum_const_zero, mul_zero, sub_zero]
    rw [sum_diff n o1 o2 h1 h2, sum_one n p hp, hxp]
    have := hc 1 0
    simp only [zero_mul, add_zero] at this
    rw [this]
    constructor <;> intro h <;> linear_combination h
  · simp only [loads, coilAcLoads, mutAcLoads, residual_append, residual_cons, residual_nil, coefM, coefI, inc_self q hq0,
      inc_ne p q hpq.symm, inc_ne o1 q d5.symm, inc_ne o2 q d6.symm, inc_ne u1 q d7.symm, inc_ne u2 q d8.symm, sub_self,
      zero_mul, zero_add, add_zero, Finset.sum_const_zero, mul_zero, sub_zero]
    rw [sum_diff n u1 u2 hu1 hu2, sum_one n q hq, hxq]
    have := hc 0 1
    simp only [zero_mul, zero_add] at this
    rw [this]
    constructor <;> intro h <;> linear_combination h

/-! ## the hypotheses are met -/

/-- an operating point, a first step that is repeated shorter, a second step -/
def exEvs : List (Ev ℚ) :=
  [.eval .static 2 1 3, .advance 4, .eval .dynamic 2 5 3, .regress 2, .eval .dynamic 2 4 2, .advance 3]

example : legalRun (.begin 2 :: (exEvs ++ [.eval .dynamic 2 7 1])) (0, false) = some (2, true) := by decide

example : ∀ m, (run 100 m (.begin 2 :: (exEvs ++ [.eval .dynamic 2 7 1]))
    ⟨fun _ => ⟨9, 9, 9⟩, fun _ => ⟨9, 9, 9⟩, fun _ => ⟨9, 9, 9⟩, fun _ => ⟨9, 9, 9⟩, fun _ => ⟨9, 9, 9⟩, fun _ => ⟨9, 9, 9⟩,
      fun _ => 9, 9, 9, 9, 9, 9⟩).c1 ≠ 0 := by
  intro m; cases m <;> decide +kernel

/-! ## where the code misses the property -/

/-- The mutual inductance is evaluated again, after the first two iterations of a step, only if the *difference* of the two
currents moved.  If both move alike it is not, the flux it keeps for the next step is that of an earlier iteration, and in
the next step it loads a wrong voltage: here both currents are 1 when it is evaluated and 5 when the step is accepted; the
next step starts from flux 2 * 1 where the winding has 2 * 5, so what it loads is `v = 2 (j - 1)`, not `v = 2 (j - 5)`. -/
theorem bypass_keeps_old_flux :
    let blank : Mut ℚ := ⟨fun _ => ⟨0, 0, 0⟩, fun _ => ⟨0, 0, 0⟩, fun _ => ⟨0, 0, 0⟩, fun _ => ⟨0, 0, 0⟩, fun _ => ⟨0, 0, 0⟩,
      fun _ => ⟨0, 0, 0⟩, fun _ => 0, 0, 0, 0, 0, 0⟩
    let ref : Ref ℚ := ⟨fun _ => ⟨0, 0, 0⟩, fun _ => ⟨0, 0, 0⟩, fun _ => 0⟩
    let before : List (Ev ℚ) := [.begin 2, .eval .static 2 0 0, .advance 1, .eval .dynamic 2 1 1]
    let s := run 100 .euler before blank
    needsEval (1 / 10 ^ 12) (1 / 1000) 5 5 s = false ∧
    (let next : List (Ev ℚ) := [.advance 2, .eval .dynamic 2 5 5]
     let t := run 100 .euler next s                                   -- as the code does, bypassing
     let r := ref.run .euler (fun _ j => j) (before ++ .eval .dynamic 2 5 5 :: next)   -- what happened
     ∀ x : ℕ → ℚ, residual 2 (t.loads 1 2) 1 x = -(2 * (x 2 - 1)) ∧ r.volts .dynamic .euler 2 (x 2) = 2 * (x 2 - 5)) := by
  refine ⟨by decide +kernel, ?_⟩
  intro next t r x
  have e1 : t.c1 = 2 := by decide +kernel
  have e2 : t.c0 = 0 := by decide +kernel
  have e3 : t.mf = -2 := by decide +kernel
  have e4 : t.mr = -2 := by decide +kernel
  have e5 : (r.y 1).f0 = 10 := by decide +kernel
  have e6 : r.time 0 - r.time 1 = 1 := by decide +kernel
  constructor
  · simp only [Mut.loads, e1, e2, e3, e4, residual, acM, acI, coefM, coefI]
    norm_num [inc, Finset.sum_Icc_succ_top]
    ring
  · simp only [Ref.volts, differentiate, usedMethod, ite_self, set0, if_true, one_ne_zero, if_false, e5, e6]
    ring

end Gnucap.Coil
