import Mathlib.Tactic.Ring
import Mathlib.Tactic.Linarith
import Mathlib.Tactic.LinearCombination
import Mathlib.Tactic.FieldSimp
import Verif.LoadModel

/-! # Lemmas about incremental loading -/
set_option linter.unusedSectionVars false
namespace Gnucap.Load
open Gnucap.Mat

section
variable {F : Type _} [Field F] [DecidableEq F]

/-- Specification: what one unit of a slot's value contributes to row r, column c. -/
def coefM : Kind → ℕ → ℕ → F
  | .passive p q, r, c => (inc p r - inc q r) * (inc p c - inc q c)
  | .active o1 o2 i1 i2, r, c => (inc o1 r - inc o2 r) * (inc i1 c - inc i2 c)
  | .couple p q, r, c => -(inc p r * inc q c + inc q r * inc p c)
  | .inode o1 o2 i, r, c =>
    (inc o1 r - inc o2 r) * inc i c + inc i r * (inc o1 c - inc o2 c)
  | .diag p, r, c => inc p r * inc p c
  | .point p q, r, c => inc p r * inc q c
  | .source _ _, _, _ => 0
  | .srcPoint _, _, _ => 0

/-- ... and to the right side of row r. -/
def coefI : Kind → ℕ → F
  | .source o1 o2, r => inc o2 r - inc o1 r
  | .srcPoint p, r => inc p r
  | _, _ => 0

/-- pairs of nodes whose matrix positions a slot touches -/
def Kind.pairs : Kind → List (ℕ × ℕ)
  | .passive p q => [(p, q)]
  | .active o1 o2 i1 i2 => [(o1, i1), (o1, i2), (o2, i1), (o2, i2)]
  | .couple p q => [(p, q)]
  | .inode o1 o2 i => [(o1, i), (o2, i)]
  | .diag _ => []
  | .point p q => [(p, q)]
  | .source _ _ => []
  | .srcPoint _ => []

/-- the element asked for its positions (`tr_iwant_matrix`) -/
def KindOK (reqs : List (ℕ × ℕ)) (k : Kind) : Prop :=
  ∀ p ∈ k.pairs, p.1 ≠ 0 → p.2 ≠ 0 → p.1 = p.2 ∨ Reserved reqs p.1 p.2

theorem stamp_a (k : Kind) (d : F) (m : Loaded F) (iv : ℕ → F) (r c : ℕ) :
    (stamp k d m iv).1.a r c = m.a r c + d * coefM k r c := by
  cases k with
  | passive p q => simp only [stamp, coefM]; rw [loadSymmetric_stamp]
  | active o1 o2 i1 i2 => simp only [stamp, coefM]; rw [loadAsymmetric_stamp]
  | couple p q => simp only [stamp, coefM]; rw [loadCouple_stamp]; ring
  | inode o1 o2 i => simp only [stamp, coefM]; rw [loadCouple_stamp, loadCouple_stamp]; ring
  | diag p => simp only [stamp, coefM]; rw [loadDiagonalPoint_stamp]
  | point p q => simp only [stamp, coefM]; rw [loadPoint_stamp]
  | source o1 o2 => simp [stamp, coefM]
  | srcPoint p => simp [stamp, coefM]

theorem stamp_i (k : Kind) (d : F) (m : Loaded F) (iv : ℕ → F) (r : ℕ) :
    (stamp k d m iv).2 r = iv r + d * coefI k r := by
  have key : ∀ (f : ℕ → F) (p : ℕ) (x : F),
      (if p ≠ 0 then vset f p (f p + x) else f) r = f r + x * inc p r := by
    intro f p x
    by_cases hp : p = 0
    · simp [hp, inc]
    · rw [if_pos hp]
      by_cases hr : r = p
      · subst hr; rw [vset_eq]; simp [inc, hp]
      · rw [vset_ne hr]; simp [inc, hr]
  cases k with
  | source o1 o2 =>
    simp only [stamp, coefI]
    have := key (if o2 ≠ 0 then vset iv o2 (iv o2 + d) else iv) o1 (-d)
    simp only [← sub_eq_add_neg] at this
    rw [this, key]; ring
  | srcPoint p => simp only [stamp, coefI]; rw [key]
  | _ => simp [stamp, coefI]

theorem stamp_ext (reqs : List (ℕ × ℕ)) (k : Kind) (h : KindOK reqs k) (d : F) (m : Loaded F) (iv : ℕ → F) :
    Ext (iwantAll reqs) m (stamp k d m iv).1 := by
  cases k with
  | passive p q => exact ext_loadSymmetric reqs p q d m (fun h1 h2 => h (p, q) (by simp [Kind.pairs]) h1 h2)
  | active o1 o2 i1 i2 =>
    refine ext_loadAsymmetric reqs o1 o2 i1 i2 d m ?_
    intro r hr c hc h1 h2
    refine h (r, c) ?_ h1 h2
    simp only [List.mem_cons, List.not_mem_nil, or_false] at hr hc
    rcases hr with rfl | rfl <;> rcases hc with rfl | rfl <;> simp [Kind.pairs]
  | couple p q => exact ext_loadCouple reqs p q d m (fun h1 h2 => h (p, q) (by simp [Kind.pairs]) h1 h2)
  | inode o1 o2 i =>
    exact (ext_loadCouple reqs o1 i (-d) m (fun h1 h2 => h (o1, i) (by simp [Kind.pairs]) h1 h2)).trans
      (ext_loadCouple reqs o2 i d _ (fun h1 h2 => h (o2, i) (by simp [Kind.pairs]) h1 h2))
  | diag p => exact ext_loadDiagonalPoint reqs p d m
  | point p q => exact ext_loadPoint reqs p q d m (fun h1 h2 => h (p, q) (by simp [Kind.pairs]) h1 h2)
  | source o1 o2 => exact Ext.refl _ _
  | srcPoint p => exact Ext.refl _ _

theorem inc_mul_profile (reqs : List (ℕ × ℕ)) (p q r c : ℕ)
    (h : p ≠ 0 → q ≠ 0 → p = q ∨ Reserved reqs p q)
    (hl : ¬ iwantAll reqs (max r c) ≤ min r c) : (inc p r : F) * inc q c = 0 := by
  unfold inc
  by_cases h1 : p ≠ 0 ∧ r = p
  · by_cases h2 : q ≠ 0 ∧ c = q
    · exfalso; apply hl
      rw [h1.2, h2.2]
      exact reserved_profile reqs p q (h h1.1 h2.1)
    · rw [if_neg h2, mul_zero]
  · rw [if_neg h1, zero_mul]

theorem coefM_profile (reqs : List (ℕ × ℕ)) (k : Kind) (h : KindOK reqs k) (r c : ℕ)
    (hl : ¬ iwantAll reqs (max r c) ≤ min r c) : (coefM k r c : F) = 0 := by
  have ok : ∀ p q, (p, q) ∈ k.pairs → (inc p r : F) * inc q c = 0 := fun p q hm =>
    inc_mul_profile reqs p q r c (fun h1 h2 => h (p, q) hm h1 h2) hl
  have hl' : ¬ iwantAll reqs (max c r) ≤ min c r := by rw [max_comm, min_comm]; exact hl
  have ok' : ∀ p q, (p, q) ∈ k.pairs → (inc p c : F) * inc q r = 0 := fun p q hm =>
    inc_mul_profile reqs p q c r (fun h1 h2 => h (p, q) hm h1 h2) hl'
  have dg : ∀ p, (inc p r : F) * inc p c = 0 := fun p =>
    inc_mul_profile reqs p p r c (fun _ _ => Or.inl rfl) hl
  cases k with
  | passive p q =>
    have e1 := ok p q (by simp [Kind.pairs]); have e2 := ok' p q (by simp [Kind.pairs])
    have e3 := dg p; have e4 := dg q
    simp only [coefM]
    linear_combination e3 + e4 - e1 - e2
  | active o1 o2 i1 i2 =>
    have e1 := ok o1 i1 (by simp [Kind.pairs]); have e2 := ok o1 i2 (by simp [Kind.pairs])
    have e3 := ok o2 i1 (by simp [Kind.pairs]); have e4 := ok o2 i2 (by simp [Kind.pairs])
    simp only [coefM]
    linear_combination e1 - e2 - e3 + e4
  | couple p q =>
    have e1 := ok p q (by simp [Kind.pairs]); have e2 := ok' p q (by simp [Kind.pairs])
    simp only [coefM]
    linear_combination -e1 - e2
  | inode o1 o2 i =>
    have e1 := ok o1 i (by simp [Kind.pairs]); have e2 := ok' o1 i (by simp [Kind.pairs])
    have e3 := ok o2 i (by simp [Kind.pairs]); have e4 := ok' o2 i (by simp [Kind.pairs])
    simp only [coefM]
    linear_combination e1 + e2 - e3 - e4
  | diag p => simp only [coefM]; exact dg p
  | point p q => simp only [coefM]; exact ok p q (by simp [Kind.pairs])
  | source o1 o2 => rfl
  | srcPoint p => rfl

end

/-! ## sums over slots -/

variable {F : Type _} [Field F] [LinearOrder F] [IsStrictOrderedRing F]

theorem sum_update (N k : ℕ) (hk : k < N) (g : Slot F → F) (f : ℕ → Slot F) (s' : Slot F) :
    ∑ j ∈ Finset.range N, g (if j = k then s' else f j) =
      ∑ j ∈ Finset.range N, g (f j) + (g s' - g (f k)) := by
  have hm : k ∈ Finset.range N := Finset.mem_range.2 hk
  rw [← Finset.add_sum_erase _ _ hm, ← Finset.add_sum_erase _ (fun j => g (f j)) hm]
  rw [if_pos rfl]
  have : ∑ x ∈ (Finset.range N).erase k, g (if x = k then s' else f x) =
      ∑ x ∈ (Finset.range N).erase k, g (f x) := by
    apply Finset.sum_congr rfl
    intro x hx
    rw [if_neg (Finset.ne_of_mem_erase hx)]
  rw [this]; ring

theorem sum_update_ge (N k : ℕ) (hk : N ≤ k) (g : Slot F → F) (f : ℕ → Slot F) (s' : Slot F) :
    ∑ j ∈ Finset.range N, g (if j = k then s' else f j) = ∑ j ∈ Finset.range N, g (f j) := by
  apply Finset.sum_congr rfl
  intro x hx
  rw [if_neg (by have := Finset.mem_range.1 hx; omega)]

/-- value a slot has in the matrix -/
def eff (s : Slot F) : F := s.mf * (s.old - s.lost)

/-- The matrix and right side are the (gmin fudge and the) sum of the slots' contributions. -/
def Cons (n N : ℕ) (st : St F) : Prop :=
  (∀ r c, st.mat.a r c = (if r = c ∧ 1 ≤ r ∧ r ≤ n then st.base else 0) +
    ∑ k ∈ Finset.range N, eff (st.slots k) * coefM (st.slots k).kind r c) ∧
  (∀ r, st.iv r = ∑ k ∈ Finset.range N, eff (st.slots k) * coefI (st.slots k).kind r)

@[simp] theorem loadSlot_inc (tol damp : F) (k : ℕ) (st : St F) : (loadSlot tol damp k st).inc = st.inc := rfl
@[simp] theorem loadSlot_isInc (tol damp : F) (k : ℕ) (st : St F) : (loadSlot tol damp k st).isInc = st.isInc := rfl
@[simp] theorem loadSlot_iter (tol damp : F) (k : ℕ) (st : St F) : (loadSlot tol damp k st).iter = st.iter := rfl
@[simp] theorem loadSlot_base (tol damp : F) (k : ℕ) (st : St F) : (loadSlot tol damp k st).base = st.base := rfl
@[simp] theorem loadSlot_lu (tol damp : F) (k : ℕ) (st : St F) : (loadSlot tol damp k st).lu = st.lu := rfl
@[simp] theorem loadSlot_v (tol damp : F) (k : ℕ) (st : St F) : (loadSlot tol damp k st).v = st.v := rfl

theorem loadSlot_kind (tol damp : F) (k : ℕ) (st : St F) (j : ℕ) :
    ((loadSlot tol damp k st).slots j).kind = (st.slots j).kind ∧
    ((loadSlot tol damp k st).slots j).mf = (st.slots j).mf := by
  simp only [loadSlot, dampdiff]
  by_cases h : j = k
  · subst h; simp
  · simp [h]

/-- amount handed to the stamp -/
def amount (tol damp : F) (k : ℕ) (st : St F) : F :=
  (dampdiff tol damp st.isInc (decide (st.iter ≤ 1)) (st.slots k)).1

theorem loadSlot_a (tol damp : F) (k : ℕ) (st : St F) (r c : ℕ) :
    (loadSlot tol damp k st).mat.a r c = st.mat.a r c + amount tol damp k st * coefM (st.slots k).kind r c := by
  simp only [loadSlot]
  change (if amount tol damp k st ≠ 0 then stamp (st.slots k).kind (amount tol damp k st) st.mat st.iv
    else (st.mat, st.iv)).1.a r c = _
  by_cases h : amount tol damp k st = 0
  · simp [h]
  · rw [if_pos h, stamp_a]

theorem loadSlot_i (tol damp : F) (k : ℕ) (st : St F) (r : ℕ) :
    (loadSlot tol damp k st).iv r = st.iv r + amount tol damp k st * coefI (st.slots k).kind r := by
  simp only [loadSlot]
  change (if amount tol damp k st ≠ 0 then stamp (st.slots k).kind (amount tol damp k st) st.mat st.iv
    else (st.mat, st.iv)).2 r = _
  by_cases h : amount tol damp k st = 0
  · simp [h]
  · rw [if_pos h, stamp_i]

theorem loadSlot_ext (reqs : List (ℕ × ℕ)) (tol damp : F) (k : ℕ) (st : St F)
    (h : KindOK reqs (st.slots k).kind) : Ext (iwantAll reqs) st.mat (loadSlot tol damp k st).mat := by
  simp only [loadSlot]
  change Ext _ _ (if amount tol damp k st ≠ 0 then stamp (st.slots k).kind (amount tol damp k st) st.mat st.iv
    else (st.mat, st.iv)).1
  by_cases h0 : amount tol damp k st = 0
  · rw [if_neg (by simpa using h0)]; exact Ext.refl _ _
  · rw [if_pos h0]; exact stamp_ext reqs _ h _ _ _

/-- in incremental mode the loaded amount is the change of the slot's effective value -/
theorem eff_inc (tol damp : F) (k : ℕ) (st : St F) (hinc : st.isInc = true) :
    eff ((loadSlot tol damp k st).slots k) = eff (st.slots k) + amount tol damp k st := by
  simp only [loadSlot, amount, dampdiff, hinc, eff, if_true]
  cases hf : decide (st.iter ≤ 1) <;> simp <;> ring

/-- in full mode the loaded amount is the slot's effective value -/
theorem eff_full (tol damp : F) (k : ℕ) (st : St F) (hinc : st.isInc = false) :
    eff ((loadSlot tol damp k st).slots k) = amount tol damp k st := by
  simp only [loadSlot, amount, dampdiff, hinc, eff, if_true]
  simp

theorem loadSlot_slots_ne (tol damp : F) (k j : ℕ) (h : j ≠ k) (st : St F) :
    (loadSlot tol damp k st).slots j = st.slots j := by
  simp [loadSlot, h]

theorem cons_loadSlot (n N : ℕ) (tol damp : F) (k : ℕ) (hk : k < N) (st : St F) (hinc : st.isInc = true)
    (h : Cons n N st) : Cons n N (loadSlot tol damp k st) := by
  have hs : ∀ j, (loadSlot tol damp k st).slots j =
      if j = k then (loadSlot tol damp k st).slots k else st.slots j := by
    intro j
    by_cases hj : j = k
    · subst hj; simp
    · rw [if_neg hj, loadSlot_slots_ne _ _ _ _ hj]
  have hkd := (loadSlot_kind tol damp k st k).1
  constructor
  · intro r c
    rw [loadSlot_a, h.1 r c, loadSlot_base]
    have := sum_update N k hk (fun s => eff s * coefM s.kind r c) st.slots ((loadSlot tol damp k st).slots k)
    rw [show ∑ j ∈ Finset.range N, eff ((loadSlot tol damp k st).slots j) *
        coefM ((loadSlot tol damp k st).slots j).kind r c =
      ∑ j ∈ Finset.range N, (fun s => eff s * coefM s.kind r c)
        (if j = k then (loadSlot tol damp k st).slots k else st.slots j) from
      Finset.sum_congr rfl (fun j _ => by rw [← hs j]), this]
    rw [hkd, eff_inc tol damp k st hinc]; ring
  · intro r
    rw [loadSlot_i, h.2 r]
    have := sum_update N k hk (fun s => eff s * coefI s.kind r) st.slots ((loadSlot tol damp k st).slots k)
    rw [show ∑ j ∈ Finset.range N, eff ((loadSlot tol damp k st).slots j) *
        coefI ((loadSlot tol damp k st).slots j).kind r =
      ∑ j ∈ Finset.range N, (fun s => eff s * coefI s.kind r)
        (if j = k then (loadSlot tol damp k st).slots k else st.slots j) from
      Finset.sum_congr rfl (fun j _ => by rw [← hs j]), this]
    rw [hkd, eff_inc tol damp k st hinc]; ring

theorem cons_loadQueue (n N : ℕ) (tol damp : F) : ∀ (q : List ℕ) (st : St F), (∀ k ∈ q, k < N) →
    st.isInc = true → Cons n N st → Cons n N (q.foldl (fun st k => loadSlot tol damp k st) st) := by
  intro q
  induction q with
  | nil => intro st _ _ h; exact h
  | cons k t ih =>
    intro st hq hinc h
    rw [List.foldl_cons]
    exact ih _ (fun j hj => hq j (List.mem_cons_of_mem _ hj)) (by simpa using hinc)
      (cons_loadSlot n N tol damp k (hq k List.mem_cons_self) st hinc h)

theorem fold_inc (tol damp : F) : ∀ (q : List ℕ) (st : St F),
    (q.foldl (fun st k => loadSlot tol damp k st) st).inc = st.inc ∧
    (q.foldl (fun st k => loadSlot tol damp k st) st).iter = st.iter ∧
    (q.foldl (fun st k => loadSlot tol damp k st) st).base = st.base ∧
    (q.foldl (fun st k => loadSlot tol damp k st) st).lu = st.lu ∧
    (q.foldl (fun st k => loadSlot tol damp k st) st).v = st.v ∧
    (∀ j, ((q.foldl (fun st k => loadSlot tol damp k st) st).slots j).kind = (st.slots j).kind ∧
      ((q.foldl (fun st k => loadSlot tol damp k st) st).slots j).mf = (st.slots j).mf) := by
  intro q
  induction q with
  | nil => intro st; simp
  | cons k t ih =>
    intro st
    rw [List.foldl_cons]
    obtain ⟨h1, h2, h3, h4, h5, h6⟩ := ih (loadSlot tol damp k st)
    refine ⟨by rw [h1]; rfl, by rw [h2]; rfl, by rw [h3]; rfl, by rw [h4]; rfl, by rw [h5]; rfl, fun j => ?_⟩
    rw [(h6 j).1, (h6 j).2]
    exact loadSlot_kind tol damp k st j

theorem isInc_congr {s t : St F} (h : s.inc = t.inc) : s.isInc = t.isInc := by
  unfold St.isInc; rw [h]

/-- loading every slot into a cleared matrix -/
theorem cons_loadAll (n : ℕ) (tol damp : F) (N : ℕ) (st : St F) (hinc : st.isInc = false)
    (ha : ∀ r c, st.mat.a r c = if r = c ∧ 1 ≤ r ∧ r ≤ n then st.base else 0) (hi : ∀ r, st.iv r = 0) :
    Cons n N ((List.range N).foldl (fun st k => loadSlot tol damp k st) st) := by
  induction N with
  | zero =>
    constructor
    · intro r c; simp [ha]
    · intro r; simp [hi]
  | succ N ih =>
    rw [List.range_succ, List.foldl_append]
    simp only [List.foldl_cons, List.foldl_nil]
    set t := (List.range N).foldl (fun st k => loadSlot tol damp k st) st
    have ht := fold_inc tol damp (List.range N) st
    have htinc : t.isInc = false := by rw [isInc_congr ht.1]; exact hinc
    have hkd := (loadSlot_kind tol damp N t N).1
    constructor
    · intro r c
      rw [loadSlot_a, ih.1 r c, Finset.sum_range_succ, loadSlot_base, hkd, eff_full tol damp N t htinc]
      have hsum : ∑ j ∈ Finset.range N, eff ((loadSlot tol damp N t).slots j) *
          coefM ((loadSlot tol damp N t).slots j).kind r c =
          ∑ j ∈ Finset.range N, eff (t.slots j) * coefM (t.slots j).kind r c :=
        Finset.sum_congr rfl (fun j hj => by
          rw [loadSlot_slots_ne tol damp N j (by have := Finset.mem_range.1 hj; omega) t])
      rw [hsum]; ring
    · intro r
      rw [loadSlot_i, ih.2 r, Finset.sum_range_succ, hkd, eff_full tol damp N t htinc]
      have hsum : ∑ j ∈ Finset.range N, eff ((loadSlot tol damp N t).slots j) *
          coefI ((loadSlot tol damp N t).slots j).kind r =
          ∑ j ∈ Finset.range N, eff (t.slots j) * coefI (t.slots j).kind r :=
        Finset.sum_congr rfl (fun j hj => by
          rw [loadSlot_slots_ne tol damp N j (by have := Finset.mem_range.1 hj; omega) t])
      rw [hsum]

theorem fresh_loadQueue (n : ℕ) (reqs : List (ℕ × ℕ)) (minp tol damp : F) : ∀ (q : List ℕ) (st : St F),
    (∀ k, KindOK reqs (st.slots k).kind) →
    Fresh n (iwantAll reqs) minp st.mat.a st.lu st.mat.changed →
    Fresh n (iwantAll reqs) minp (q.foldl (fun st k => loadSlot tol damp k st) st).mat.a st.lu
      (q.foldl (fun st k => loadSlot tol damp k st) st).mat.changed := by
  intro q
  induction q with
  | nil => intro st _ h; exact h
  | cons k t ih =>
    intro st hok h
    rw [List.foldl_cons]
    have := ih (loadSlot tol damp k st) (fun j => by rw [(loadSlot_kind tol damp k st j).1]; exact hok j)
      ((loadSlot_ext reqs tol damp k st (hok k)).fresh (iwantAll_wf n reqs) h)
    exact this

/-! ## the invariant -/

structure Inv (n : ℕ) (reqs : List (ℕ × ℕ)) (minp : F) (N : ℕ) (stage : Stage) (st : St F) : Prop where
  kinds : ∀ k, KindOK reqs (st.slots k).kind
  adv : stage = .advancing → st.iter = 0
  itg : stage = .iterating → 1 ≤ st.iter
  yes : st.inc = .yes → Cons n N st ∧ Fresh n (iwantAll reqs) minp st.mat.a st.lu st.mat.changed
  run : stage = .iterating → Cons n N st ∧ ∀ m, 1 ≤ m → m ≤ n → EqAt (iwantAll reqs) minp st.mat.a st.lu m

theorem fresh_of_eqAt {n : ℕ} {low : ℕ → ℕ} {minp : F} {a lu : Arr F} {ch : ℕ → Bool}
    (h : ∀ m, 1 ≤ m → m ≤ n → EqAt low minp a lu m) : Fresh n low minp a lu ch :=
  fun m h1 h2 _ => h m h1 h2

theorem setFlags_cases (o : IterIn F) (st : St F) :
    (setFlags o st).inc = .no ∨ ((setFlags o st).inc = .yes ∧ (st.inc = .yes ∨ st.iter ≠ 0)) := by
  unfold setFlags
  split
  · exact Or.inl rfl
  · split
    · exact Or.inl rfl
    · split
      · exact Or.inl rfl
      · split
        · cases h : st.inc with
          | no => exact Or.inl rfl
          | yes => exact Or.inr ⟨rfl, Or.inl rfl⟩
          | bad => exact absurd h (by assumption)
        · rename_i h; exact Or.inr ⟨rfl, Or.inr h⟩

theorem setFlags_rest (o : IterIn F) (st : St F) :
    (setFlags o st).iter = st.iter ∧ (setFlags o st).mat = st.mat ∧ (setFlags o st).iv = st.iv ∧
    (setFlags o st).lu = st.lu ∧ (setFlags o st).slots = st.slots ∧ (setFlags o st).base = st.base ∧
    (setFlags o st).v = st.v := by
  unfold setFlags
  split
  · simp
  · split
    · simp
    · split
      · simp
      · split <;> simp

/-- state after `set_flags`, `clear_arrays`, `evaluate_models`: either cleared (and flag `no`), or consistent -/
theorem prepared (n : ℕ) (reqs : List (ℕ × ℕ)) (minp : F) (N : ℕ) (stage : Stage) (st : St F) (o : IterIn F)
    (h : Inv n reqs minp N stage st) (hst : stage ≠ .idle) :
    let t := evaluate o (clearArrays n o (setFlags o st))
    (t.inc = .no ∧ (∀ r c, t.mat.a r c = if r = c ∧ 1 ≤ r ∧ r ≤ n then t.base else 0) ∧ (∀ r, t.iv r = 0) ∧
      t.base = o.gmin) ∨
    (t.isInc = true ∧ Cons n N t ∧ Fresh n (iwantAll reqs) minp t.mat.a t.lu t.mat.changed ∧ t.base = st.base) := by
  intro t
  obtain ⟨e1, e2, e3, e4, e5, e6, e7⟩ := setFlags_rest o st
  rcases setFlags_cases o st with hno | ⟨hyes, hwhy⟩
  · left
    have hi : (setFlags o st).isInc = false := by unfold St.isInc; rw [hno]
    have hc : clearArrays n o (setFlags o st) =
        { setFlags o st with mat := clearWith n o.gmin (setFlags o st).mat, iv := fun _ => 0, base := o.gmin } := by
      unfold clearArrays; rw [hi]; rfl
    refine ⟨?_, ?_, ?_, ?_⟩
    · show (if o.mark then markBad (clearArrays n o (setFlags o st)).inc else (clearArrays n o (setFlags o st)).inc) = _
      rw [hc]; simp only [hno, markBad, ite_self]
    · intro r c
      show (clearArrays n o (setFlags o st)).mat.a r c = if _ then (clearArrays n o (setFlags o st)).base else 0
      rw [hc]; simp [clearWith]
    · intro r
      show (clearArrays n o (setFlags o st)).iv r = 0
      rw [hc]
    · show (clearArrays n o (setFlags o st)).base = _
      rw [hc]
  · right
    have hi : (setFlags o st).isInc = true := by unfold St.isInc; rw [hyes]
    have hc : clearArrays n o (setFlags o st) = setFlags o st := by
      unfold clearArrays; rw [hi]; rfl
    have hcf : Cons n N st ∧ Fresh n (iwantAll reqs) minp st.mat.a st.lu st.mat.changed := by
      rcases hwhy with hw | hw
      · exact h.yes hw
      · have : stage = .iterating := by
          cases stage with
          | idle => exact absurd rfl hst
          | advancing => exact absurd (h.adv rfl) hw
          | iterating => rfl
        exact ⟨(h.run this).1, fresh_of_eqAt (h.run this).2⟩
    have ht : t = { setFlags o st with
        iter := (setFlags o st).iter + 1
        inc := if o.mark then markBad (setFlags o st).inc else (setFlags o st).inc
        slots := fun k => { (setFlags o st).slots k with new := o.vals k } } := by
      show evaluate o (clearArrays n o (setFlags o st)) = _
      rw [hc]; rfl
    rw [ht]
    refine ⟨?_, ?_, ?_, ?_⟩
    · unfold St.isInc; simp only [hyes]; cases o.mark <;> simp [markBad]
    · constructor
      · intro r c
        simp only [e2, e5, e6]
        exact hcf.1.1 r c
      · intro r
        simp only [e3, e5]
        exact hcf.1.2 r
    · simp only [e2, e4]; exact hcf.2
    · exact e6

theorem evaluate_kinds (n : ℕ) (o : IterIn F) (st : St F) (k : ℕ) :
    ((evaluate o (clearArrays n o (setFlags o st))).slots k).kind = (st.slots k).kind ∧
    ((evaluate o (clearArrays n o (setFlags o st))).slots k).mf = (st.slots k).mf ∧
    ((evaluate o (clearArrays n o (setFlags o st))).slots k).new = o.vals k ∧
    ((evaluate o (clearArrays n o (setFlags o st))).slots k).old = (st.slots k).old ∧
    ((evaluate o (clearArrays n o (setFlags o st))).slots k).lost = (st.slots k).lost ∧
    ((evaluate o (clearArrays n o (setFlags o st))).slots k).nlost = (st.slots k).nlost ∧
    (evaluate o (clearArrays n o (setFlags o st))).iter = st.iter + 1 := by
  obtain ⟨e1, _, _, _, e5, _, _⟩ := setFlags_rest o st
  have h1 : (clearArrays n o (setFlags o st)).slots = (setFlags o st).slots := by unfold clearArrays; split <;> rfl
  have h2 : (clearArrays n o (setFlags o st)).iter = (setFlags o st).iter := by unfold clearArrays; split <;> rfl
  simp only [evaluate, h1, h2, e1, e5]
  simp

/-- state after `load_matrix` -/
theorem loaded (n : ℕ) (reqs : List (ℕ × ℕ)) (minp tol : F) (N : ℕ) (stage : Stage) (st : St F) (o : IterIn F)
    (h : Inv n reqs minp N stage st) (hst : stage ≠ .idle) (hq : ∀ k ∈ o.queue, k < N) :
    let t := loadMatrix tol N o (evaluate o (clearArrays n o (setFlags o st)))
    Cons n N t ∧ (t.isInc = true → Fresh n (iwantAll reqs) minp t.mat.a t.lu t.mat.changed) ∧
    (t.isInc = false → t.inc = .no ∧ t.base = o.gmin) ∧
    (∀ k, KindOK reqs (t.slots k).kind) ∧ t.iter = st.iter + 1 := by
  intro t
  set p := evaluate o (clearArrays n o (setFlags o st)) with hp
  have hpk : ∀ k, KindOK reqs (p.slots k).kind := by
    intro k; rw [(evaluate_kinds n o st k).1]; exact h.kinds k
  have hiter : p.iter = st.iter + 1 := (evaluate_kinds n o st 0).2.2.2.2.2.2
  rcases prepared n reqs minp N stage st o h hst with ⟨h1, h2, h3, h4⟩ | ⟨h1, h2, h3, h4⟩
  · have hi : p.isInc = false := by unfold St.isInc; rw [← hp] at h1; rw [h1]
    have ht : t = (List.range N).foldl (fun st k => loadSlot tol o.damp k st) p := by
      show loadMatrix tol N o p = _
      unfold loadMatrix; rw [hi]; simp
    have hf := fold_inc tol o.damp (List.range N) p
    rw [← ht] at hf
    refine ⟨?_, ?_, ?_, ?_, ?_⟩
    · rw [ht]; exact cons_loadAll n tol o.damp N p hi h2 h3
    · intro hh; rw [isInc_congr hf.1, hi] at hh; exact absurd hh (by decide)
    · intro _; refine ⟨by rw [hf.1]; exact h1, by rw [hf.2.2.1]; exact h4⟩
    · intro k; rw [(hf.2.2.2.2.2 k).1]; exact hpk k
    · rw [hf.2.1, hiter]
  · have ht : t = (if o.traceload then o.queue else List.range N).foldl (fun st k => loadSlot tol o.damp k st) p := by
      show loadMatrix tol N o p = _
      unfold loadMatrix; rw [← hp] at h1; rw [h1]
      cases o.traceload <;> simp
    have hq' : ∀ k ∈ (if o.traceload then o.queue else List.range N), k < N := by
      intro k hk
      cases htl : o.traceload with
      | true => rw [htl] at hk; exact hq k (by simpa using hk)
      | false => rw [htl] at hk; simpa using hk
    have hf := fold_inc tol o.damp (if o.traceload then o.queue else List.range N) p
    rw [← ht] at hf
    refine ⟨?_, ?_, ?_, ?_, ?_⟩
    · rw [ht]; exact cons_loadQueue n N tol o.damp _ p hq' h1 h2
    · intro _; rw [hf.2.2.2.1, ht]; exact fresh_loadQueue n reqs minp tol o.damp _ p hpk h3
    · intro hh; rw [isInc_congr hf.1, h1] at hh; exact absurd hh (by decide)
    · intro k; rw [(hf.2.2.2.2.2 k).1]; exact hpk k
    · rw [hf.2.1, hiter]

theorem inv_iter (n : ℕ) (reqs : List (ℕ × ℕ)) (minp tol : F) (N : ℕ) (stage : Stage) (st : St F) (o : IterIn F)
    (h : Inv n reqs minp N stage st) (hst : stage ≠ .idle) (hq : ∀ k ∈ o.queue, k < N) :
    Inv n reqs minp N .iterating (stepEv n (iwantAll reqs) minp tol N (.iter o) st) := by
  obtain ⟨h1, h2, h3, h4, h5⟩ := loaded n reqs minp tol N stage st o h hst hq
  set t := loadMatrix tol N o (evaluate o (clearArrays n o (setFlags o st)))
  have hlu := luCopy_spec n (iwantAll reqs) minp (o.lubypass && t.isInc) t.mat.a t.lu t.mat.changed
    (iwantAll_wf n reqs) (fun hh => h2 (by simpa using (Bool.and_eq_true _ _ ▸ hh : _ ∧ _).2))
  have hcons : Cons n N (stepEv n (iwantAll reqs) minp tol N (.iter o) st) := h1
  refine ⟨h4, fun hh => absurd hh (by decide), fun _ => ?_, fun _ => ⟨hcons, ?_⟩, fun _ => ⟨hcons, ?_⟩⟩
  · show 1 ≤ t.iter
    omega
  · exact fresh_of_eqAt hlu.1
  · exact hlu.1

theorem inv_step (n : ℕ) (reqs : List (ℕ × ℕ)) (minp tol : F) (N : ℕ) (stage stage' : Stage) (st : St F) (e : Ev F)
    (h : Inv n reqs minp N stage st) (hn : nextStage N stage e = some stage') :
    Inv n reqs minp N stage' (stepEv n (iwantAll reqs) minp tol N e st) := by
  cases e with
  | sweepStart g lu ch =>
    simp only [nextStage, Option.some.injEq] at hn; subst hn
    exact ⟨h.kinds, fun hh => absurd hh (by decide), fun hh => absurd hh (by decide),
      fun hh => absurd hh (by simp [stepEv]), fun hh => absurd hh (by decide)⟩
  | incNo =>
    simp only [nextStage, Option.some.injEq] at hn; subst hn
    exact ⟨h.kinds, fun hh => absurd hh (by decide), fun hh => absurd hh (by decide),
      fun hh => absurd hh (by simp [stepEv]), fun hh => absurd hh (by decide)⟩
  | beginStep =>
    simp only [nextStage, Option.some.injEq] at hn; subst hn
    exact ⟨h.kinds, fun _ => rfl, fun hh => absurd hh (by decide), h.yes, fun hh => absurd hh (by decide)⟩
  | unload k =>
    have hs : stage = .advancing ∧ stage' = .advancing := by
      cases stage <;> simp [nextStage] at hn ⊢
      exact hn.2.symm
    obtain ⟨rfl, rfl⟩ := hs
    refine ⟨?_, fun _ => h.adv rfl, fun hh => absurd hh (by decide), ?_, fun hh => absurd hh (by decide)⟩
    · intro j
      simp only [stepEv]
      rw [(loadSlot_kind _ _ _ _ j).1]
      simp only
      split
      · exact h.kinds j
      · exact h.kinds j
    · intro hh
      simp only [stepEv, loadSlot_inc] at hh
      cases hi : st.inc <;> rw [hi] at hh <;> exact absurd hh (by decide)
  | iter o =>
    have hs : stage ≠ .idle ∧ stage' = .iterating ∧ ∀ k ∈ o.queue, k < N := by
      cases stage <;> simp [nextStage] at hn ⊢
      · exact ⟨hn.2.symm, hn.1⟩
      · exact ⟨hn.2.symm, hn.1⟩
    obtain ⟨h1, rfl, h2⟩ := hs
    exact inv_iter n reqs minp tol N stage st o h h1 h2
  | iterBypass o =>
    have hs : stage ≠ .idle ∧ stage' = .idle := by
      cases stage <;> simp [nextStage] at hn ⊢
      · exact hn.symm
      · exact hn.symm
    obtain ⟨h1, rfl⟩ := hs
    refine ⟨?_, fun hh => absurd hh (by decide), fun hh => absurd hh (by decide), ?_, fun hh => absurd hh (by decide)⟩
    · intro k
      simp only [stepEv]
      rw [(evaluate_kinds n o st k).1]; exact h.kinds k
    · intro hh
      rcases prepared n reqs minp N stage st o h h1 with ⟨h2, _⟩ | ⟨_, h3, h4, _⟩
      · simp only [stepEv] at hh; rw [h2] at hh; exact absurd hh (by decide)
      · exact ⟨h3, h4⟩

theorem inv_run (n : ℕ) (reqs : List (ℕ × ℕ)) (minp tol : F) (N : ℕ) :
    ∀ (evs : List (Ev F)) (stage stage' : Stage) (st : St F),
      Inv n reqs minp N stage st → stageOf N evs stage = some stage' →
      Inv n reqs minp N stage' (runEv n (iwantAll reqs) minp tol N evs st) := by
  intro evs
  induction evs with
  | nil =>
    intro stage stage' st h hs
    simp only [stageOf, List.foldlM_nil, Option.pure_def, Option.some.injEq] at hs
    subst hs; exact h
  | cons e t ih =>
    intro stage stage' st h hs
    simp only [stageOf, List.foldlM_cons, Option.bind_eq_bind] at hs
    cases hn : nextStage N stage e with
    | none => rw [hn] at hs; exact absurd hs (by simp)
    | some s1 =>
      rw [hn] at hs
      exact ih s1 stage' _ (inv_step n reqs minp tol N stage s1 st e h hn) hs

end Gnucap.Load
