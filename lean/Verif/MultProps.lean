import Mathlib.Algebra.BigOperators.Fin
import Mathlib.Tactic.Ring
import Mathlib.Tactic.Linarith
import Verif.MultModel
import Verif.LoadLemmas

/-!
# Multiplicity (C83)

Specification: a component is found by a path (the place in the circuit, then the place inside, ...); its factor should be the product of
the factors on the path, with the parameters of the last analysis.
-/
set_option linter.unusedSectionVars false
namespace Gnucap.Mult

variable {P F : Type _}

/-! ## specification -/

/-- the component at a path -/
def nodeAt : List (Inst P F) → List ℕ → Option (Inst P F)
  | _, [] => none
  | s, [i] => s[i]?
  | s, i :: j :: r => s[i]?.bind fun c => nodeAt c.inner (j :: r)

/-- what the netlist says on the way to a path: for each component whether it passes `precalc_first` on, and its factor -/
def along : List (Proto P F) → List ℕ → Option (List (Bool × Option (P → F)))
  | _, [] => none
  | s, [i] => s[i]?.map fun c => [(c.pass, c.own)]
  | s, i :: j :: r => s[i]?.bind fun c => (along c.inner (j :: r)).map ((c.pass, c.own) :: ·)

/-- the product of the factors on the way, with parameters `p` -/
def product [Ring F] (p : P) (l : List (Bool × Option (P → F))) : F := (l.map fun x => mine p x.2).prod

/-- the parameters of the last analysis -/
def lastParams (p0 : P) : List (Op P) → P
  | [] => p0
  | .analysis p :: r => lastParams p r
  | .point _ :: r => lastParams p0 r

/-- does the last component of the way get `precalc_first` from the circuit? -/
def reached (l : List (Bool × Option (P → F))) : Bool := l.dropLast.all fun x => x.1

/-! ## lemmas -/

section
variable [Ring F]

theorem precalcAll_map (p : P) (o : Option (Option F)) (s : List (Inst P F)) :
    precalcAll p o s = s.map (precalc p o) := by
  induction s with
  | nil => simp [precalcAll]
  | cons c l ih => simp [precalcAll, ih]

theorem expandAll_map (p : P) (o : Option (Option F)) (s : List (Proto P F)) :
    expandAll p o s = s.map (expand p o) := by
  induction s with
  | nil => simp [expandAll]
  | cons c l ih => simp [expandAll, ih]

/-- the same way, in the circuit in use -/
def alongI : List (Inst P F) → List ℕ → Option (List (Bool × Option (P → F)))
  | _, [] => none
  | s, [i] => s[i]?.map fun c => [(c.pass, c.own)]
  | s, i :: j :: r => s[i]?.bind fun c => (alongI c.inner (j :: r)).map ((c.pass, c.own) :: ·)

/-- the factor computed down a way -/
def chain (p : P) : Option (Option F) → List (Bool × Option (P → F)) → Option F
  | o, [] => match o with | none => some 1 | some x => x
  | o, x :: r => chain p (some (fix o (mine p x.2))) r

theorem chain_some (p : P) (x : F) : ∀ l, chain p (some (some x)) l = some (x * product p l)
  | [] => by simp [chain, product]
  | a :: r => by
    rw [chain, fix, Option.map_some, chain_some p _ r]
    simp [product, mul_assoc]

theorem chain_none (p : P) (l : List (Bool × Option (P → F))) : chain p (none : Option (Option F)) l = some (product p l) := by
  cases l with
  | nil => simp [chain, product]
  | cons a r => rw [chain, fix, chain_some]; simp [product]

theorem expand_at (p : P) : ∀ (path : List ℕ) (ps : List (Proto P F)) (o : Option (Option F)),
    alongI (expandAll p o ps) path = along ps path ∧
    (nodeAt (expandAll p o ps) path).map Inst.fixed = (along ps path).map (chain p o)
  | [], _, _ => by simp [along, alongI, nodeAt]
  | [i], ps, o => by
    rw [expandAll_map]
    simp only [alongI, along, nodeAt, List.getElem?_map, Option.map_map]
    cases ps[i]? with
    | none => simp
    | some c => cases c; simp [expand, Inst.pass, Inst.own, Inst.fixed, Proto.pass, Proto.own, chain]
  | i :: j :: r, ps, o => by
    rw [expandAll_map]
    simp only [alongI, along, nodeAt, List.getElem?_map]
    cases ps[i]? with
    | none => simp
    | some c =>
      cases c with
      | mk b own inner =>
        obtain ⟨h1, h2⟩ := expand_at p (j :: r) inner (some (fix o (mine p own)))
        simp only [Option.map_some, Option.bind_some, expand, Inst.inner, Inst.pass, Inst.own, Proto.pass, Proto.own, Proto.inner]
        refine ⟨by rw [h1], ?_⟩
        rw [h2, Option.map_map]
        rfl

theorem alongI_ne : ∀ (path : List ℕ) (s : List (Inst P F)), alongI s path ≠ some []
  | [], _ => by simp [alongI]
  | [i], s => by
    simp only [alongI]
    cases s[i]? <;> simp
  | i :: j :: r, s => by
    simp only [alongI]
    cases s[i]? <;> simp

theorem reached_cons (b : Bool) (o : Option (P → F)) (l : List (Bool × Option (P → F))) (h : l ≠ []) :
    reached ((b, o) :: l) = (b && reached l) := by
  simp [reached, List.dropLast_cons_of_ne_nil h]

theorem precalc_at (p : P) : ∀ (path : List ℕ) (s : List (Inst P F)) (o : Option (Option F)),
    alongI (precalcAll p o s) path = alongI s path ∧
    ∀ l, alongI s path = some l →
      (nodeAt (precalcAll p o s) path).map Inst.fixed =
        if reached l then some (chain p o l) else (nodeAt s path).map Inst.fixed
  | [], _, _ => by simp [alongI]
  | [i], s, o => by
    rw [precalcAll_map]
    simp only [alongI, nodeAt, List.getElem?_map]
    cases s[i]? with
    | none => simp
    | some c =>
      cases c
      refine ⟨by simp [precalc, Inst.pass, Inst.own], ?_⟩
      intro l hl
      simp only [Option.map_some, Option.some.injEq] at hl
      subst hl
      simp [precalc, Inst.own, Inst.fixed, reached, chain]
  | i :: j :: r, s, o => by
    rw [precalcAll_map]
    simp only [alongI, nodeAt, List.getElem?_map]
    cases s[i]? with
    | none => simp
    | some c =>
      cases c with
      | mk b own f inner =>
        obtain ⟨h1, h2⟩ := precalc_at p (j :: r) inner (some (fix o (mine p own)))
        simp only [Option.map_some, Option.bind_some, precalc, Inst.inner, Inst.pass, Inst.own]
        cases b with
        | false =>
          refine ⟨by simp, ?_⟩
          intro l hl
          simp only [Option.map_eq_some_iff] at hl
          obtain ⟨l', hl', rfl⟩ := hl
          have hne : l' ≠ [] := fun h => alongI_ne _ _ (h ▸ hl')
          simp [reached_cons _ _ _ hne]
        | true =>
          refine ⟨by simp [h1], ?_⟩
          intro l hl
          simp only [Option.map_eq_some_iff] at hl
          obtain ⟨l', hl', rfl⟩ := hl
          have hne : l' ≠ [] := fun h => alongI_ne _ _ (h ▸ hl')
          simp only [if_true, h2 l' hl', reached_cons _ _ _ hne, Bool.true_and, chain]

/-- the state after a history -/
theorem history_at (ps : List (Proto P F)) (path : List ℕ) (l : List (Bool × Option (P → F))) (hl : along ps path = some l)
    (p0 : P) (ops : List (Op P)) :
    alongI (history p0 ps ops) path = some l ∧
    (nodeAt (history p0 ps ops) path).map Inst.fixed =
      some (some (product (if reached l then lastParams p0 ops else p0) l)) := by
  suffices H : ∀ (ops : List (Op P)) (s : List (Inst P F)) (q : P), alongI s path = some l →
      (nodeAt s path).map Inst.fixed = some (some (product (if reached l then q else p0) l)) →
      alongI (ops.foldl step s) path = some l ∧
      (nodeAt (ops.foldl step s) path).map Inst.fixed =
        some (some (product (if reached l then lastParams q ops else p0) l)) by
    obtain ⟨h1, h2⟩ := expand_at p0 path ps none
    refine H ops _ p0 (by rw [h1, hl]) ?_
    rw [h2, hl]
    simp [chain_none]
  intro ops
  induction ops with
  | nil => intro s q h1 h2; exact ⟨h1, h2⟩
  | cons a r ih =>
    intro s q h1 h2
    rw [List.foldl_cons]
    cases a with
    | point p => exact ih s q h1 h2
    | analysis p =>
      obtain ⟨g1, g2⟩ := precalc_at p path s none
      refine ih (precalcAll p none s) p (by rw [g1, h1]) ?_
      rw [g2 l h1, chain_none]
      by_cases hr : reached l = true
      · simp [hr]
      · rw [if_neg hr, h2, if_neg hr, if_neg hr]

end

/-! ## the product -/

section
variable [Ring F]

/-- **C83, first.**  After the first analysis every component, however deep, has the product of the factors on its path. -/
theorem first_product (p0 : P) (ps : List (Proto P F)) (path : List ℕ) (l : List (Bool × Option (P → F)))
    (hl : along ps path = some l) :
    ∃ c, nodeAt (history p0 ps []) path = some c ∧ c.fixed = some (product p0 l) := by
  have h := (history_at ps path l hl p0 []).2
  simp only [lastParams, ite_self, Option.map_eq_some_iff] at h
  exact h

/-- **C83, partial**: after any number of analyses and sweep points it has the product with the parameters of the last analysis, if all
that contain it are subcircuits (or logic devices).  What is missing: the elements inside the devices of modelgen (`stale_inside`) and
the points of a sweep (`sweep_keeps`). -/
theorem runs_product_partial (p0 : P) (ps : List (Proto P F)) (ops : List (Op P)) (path : List ℕ)
    (l : List (Bool × Option (P → F))) (hl : along ps path = some l) (hr : reached l = true) :
    ∃ c, nodeAt (history p0 ps ops) path = some c ∧ c.fixed = some (product (lastParams p0 ops) l) := by
  have h := (history_at ps path l hl p0 ops).2
  rw [if_pos hr, Option.map_eq_some_iff] at h
  exact h

/-- **C83, violated**: inside a device made by modelgen the factor stays the one of the first analysis, whatever the parameters are. -/
theorem stale_inside (p0 : P) (ps : List (Proto P F)) (ops : List (Op P)) (path : List ℕ)
    (l : List (Bool × Option (P → F))) (hl : along ps path = some l) (hr : reached l = false) :
    ∃ c, nodeAt (history p0 ps ops) path = some c ∧ c.fixed = some (product p0 l) := by
  have h := (history_at ps path l hl p0 ops).2
  rw [if_neg (by simp [hr]), Option.map_eq_some_iff] at h
  exact h

/-- **C83, violated**: at the points of a sweep every factor is the one from before the sweep, also when the parameter swept is the
factor. -/
theorem sweep_keeps (p0 : P) (ps : List (Proto P F)) (ops : List (Op P)) (pts : List P) :
    history p0 ps (ops ++ pts.map .point) = history p0 ps ops := by
  rw [history, List.foldl_append]
  change List.foldl step (history p0 ps ops) _ = _
  generalize history p0 ps ops = s
  induction pts generalizing s with
  | nil => rfl
  | cons a r ih => rw [List.map_cons, List.foldl_cons]; exact ih s

end

/-- a subcircuit with the factor `k`, in it a subcircuit with the factor 3, in it a resistor and a diode with the factor 2; the diode
has two elements inside -/
def demo : List (Proto ℤ ℤ) :=
  [.mk true (some fun k => k) [.mk true (some fun _ => 3) [.mk true none [], .mk false (some fun _ => 2) [.mk true none [], .mk true none []]]]]

/-- the way to the diode, and on to what is inside of it -/
def way : List (Bool × Option (ℤ → ℤ)) := [(true, some fun k => k), (true, some fun _ => 3), (false, some fun _ => 2)]

def inside : List (Bool × Option (ℤ → ℤ)) :=
  [(true, some fun k => k), (true, some fun _ => 3), (false, some fun _ => 2), (true, none)]

example : ∃ c, nodeAt (history 5 demo []) [0, 0, 1, 1] = some c ∧ c.fixed = some 30 := by
  simpa [product, mine, inside] using first_product 5 demo [0, 0, 1, 1] inside rfl

example : ∃ c, nodeAt (history 5 demo [.analysis 7, .point 9]) [0, 0, 1] = some c ∧ c.fixed = some 42 := by
  simpa [product, mine, way, lastParams] using runs_product_partial 5 demo [.analysis 7, .point 9] [0, 0, 1] way rfl rfl

/-- the diode above counts 42 times after the change, its junction still 30 times -/
theorem stale_witness :
    (∃ c, nodeAt (history 5 demo [.analysis 7]) [0, 0, 1] = some c ∧ c.fixed = some 42) ∧
    (∃ c, nodeAt (history 5 demo [.analysis 7]) [0, 0, 1, 0] = some c ∧ c.fixed = some 30) := by
  constructor
  · simpa [product, mine, way, lastParams] using runs_product_partial 5 demo [.analysis 7] [0, 0, 1] way rfl rfl
  · simpa [product, mine, inside] using stale_inside 5 demo [.analysis 7] [0, 0, 1, 0] inside rfl rfl

/-! ## k of them -/

section
open Gnucap.Load Gnucap.Mat
variable {F : Type _} [Field F] [LinearOrder F] [IsStrictOrderedRing F]

/-- Loading one slot, for any entry. -/
theorem loadSlot_at (tol damp : F) (k : ℕ) (st : St F) (r c : ℕ) :
    (loadSlot tol damp k st).mat.a r c =
      st.mat.a r c + (dampdiff tol damp st.isInc (decide (st.iter ≤ 1)) (st.slots k)).1 * coefM (st.slots k).kind r c ∧
    (loadSlot tol damp k st).iv r =
      st.iv r + (dampdiff tol damp st.isInc (decide (st.iter ≤ 1)) (st.slots k)).1 * coefI (st.slots k).kind r := by
  simp only [loadSlot]
  by_cases h : (dampdiff tol damp st.isInc (decide (st.iter ≤ 1)) (st.slots k)).1 = 0
  · simp [h]
  · simp only [ne_eq, h, not_false_eq_true, if_true]
    exact ⟨stamp_a _ _ _ _ _ _, stamp_i _ _ _ _ _⟩

/-- **C83, loading.**  `n` elements of factor `m`, alike in everything, load exactly what one of factor `n * m` does: in full and
incremental loads, damped or not. -/
theorem copies_load (tol damp m : F) : ∀ (ks : List ℕ) (st st' : St F) (k : ℕ),
    ks.Nodup → st'.isInc = st.isInc → st'.iter = st.iter →
    (∀ j ∈ ks, (st.slots j).kind = (st'.slots k).kind ∧ (st.slots j).new = (st'.slots k).new ∧
      (st.slots j).old = (st'.slots k).old ∧ (st.slots j).mf = m) →
    (st'.slots k).mf = ks.length * m → ∀ r c,
    (ks.foldl (fun s j => loadSlot tol damp j s) st).mat.a r c - st.mat.a r c =
      (loadSlot tol damp k st').mat.a r c - st'.mat.a r c ∧
    (ks.foldl (fun s j => loadSlot tol damp j s) st).iv r - st.iv r =
      (loadSlot tol damp k st').iv r - st'.iv r := by
  intro ks st st' k hnd hi hit hs hm r c
  obtain ⟨ha, hb⟩ := loadSlot_at tol damp k st' r c
  rw [ha, hb]
  have hd : (dampdiff tol damp st'.isInc (decide (st'.iter ≤ 1)) (st'.slots k)).1 =
      ks.length * (dampdiff tol damp st'.isInc (decide (st'.iter ≤ 1)) { st'.slots k with mf := m }).1 := by
    simp only [dampdiff, hm]; ring
  rw [hd]
  have key : ∀ (l : List ℕ) (s : St F), l.Nodup → s.isInc = st'.isInc → s.iter = st'.iter →
      (∀ j ∈ l, (s.slots j).kind = (st'.slots k).kind ∧ (s.slots j).new = (st'.slots k).new ∧
        (s.slots j).old = (st'.slots k).old ∧ (s.slots j).mf = m) →
      (l.foldl (fun s j => loadSlot tol damp j s) s).mat.a r c = s.mat.a r c +
        l.length * (dampdiff tol damp st'.isInc (decide (st'.iter ≤ 1)) { st'.slots k with mf := m }).1 *
          coefM (st'.slots k).kind r c ∧
      (l.foldl (fun s j => loadSlot tol damp j s) s).iv r = s.iv r +
        l.length * (dampdiff tol damp st'.isInc (decide (st'.iter ≤ 1)) { st'.slots k with mf := m }).1 *
          coefI (st'.slots k).kind r := by
    intro l
    induction l with
    | nil => intro s _ _ _ _; simp
    | cons a l ih =>
      intro s hn h1 h2 h3
      obtain ⟨hna, hn⟩ := List.nodup_cons.mp hn
      rw [List.foldl_cons]
      obtain ⟨e1, e2⟩ := ih (loadSlot tol damp a s) hn (by rw [← h1]; rfl) (by rw [← h2]; rfl) (by
        intro j hj
        have hja : j ≠ a := fun h => hna (h ▸ hj)
        have : (loadSlot tol damp a s).slots j = s.slots j := by simp [loadSlot, hja]
        rw [this]; exact h3 j (List.mem_cons_of_mem _ hj))
      obtain ⟨g1, g2⟩ := loadSlot_at tol damp a s r c
      obtain ⟨q1, q2, q3, q4⟩ := h3 a List.mem_cons_self
      have hx : (dampdiff tol damp s.isInc (decide (s.iter ≤ 1)) (s.slots a)).1 =
          (dampdiff tol damp st'.isInc (decide (st'.iter ≤ 1)) { st'.slots k with mf := m }).1 := by
        simp only [dampdiff, h1, h2, q2, q3, q4]
      rw [e1, e2, g1, g2, hx, q1, List.length_cons]
      push_cast
      constructor <;> ring
  obtain ⟨k1, k2⟩ := key ks st hnd hi.symm hit.symm hs
  rw [k1, k2]
  constructor <;> ring

/-- three elements counted twice each, and one counted six times -/
example (st : St ℚ) (s : Slot ℚ) (tol damp : ℚ) (r c : ℕ) :
    ([4, 5, 6].foldl (fun t j => loadSlot tol damp j t) { st with slots := fun _ => { s with mf := 2 } }).mat.a r c =
      (loadSlot tol damp 0 { st with slots := fun _ => { s with mf := 6 } }).mat.a r c := by
  have h := (copies_load tol damp 2 [4, 5, 6] { st with slots := fun _ => { s with mf := 2 } }
    { st with slots := fun _ => { s with mf := 6 } } 0 (by decide) rfl rfl (fun j _ => ⟨rfl, rfl, rfl, rfl⟩) (by norm_num) r c).1
  exact sub_left_injective h

end

section
variable {F : Type _} [Field F] [CharZero F] {E I : Type _} [DecidableEq E] [DecidableEq I]

/-- An element between two nodes; its current may depend on all voltages. -/
structure Elem (N F : Type _) where
  mf : F
  a : N
  b : N
  cur : (N → F) → F

/-- what the elements draw out of a node (TangentProps, `element_row`) -/
def draws {N : Type _} [DecidableEq N] (l : List (Elem N F)) (v : N → F) (n : N) : F :=
  (l.map fun e => ((if e.a = n then 1 else 0) - (if e.b = n then 1 else 0)) * (e.mf * e.cur v)).sum

/-- the inside of a subcircuit with the factor `k` on it: every factor `k` times (`first_product`) -/
def times (k : ℕ) (body : List (Elem (E ⊕ I) F)) : List (Elem (E ⊕ I) F) :=
  body.map fun e => { e with mf := k * e.mf }

/-- the nodes of copy `j`: those outside are common, those inside its own -/
def place {k : ℕ} (j : Fin k) : E ⊕ I → E ⊕ (Fin k × I)
  | .inl x => .inl x
  | .inr i => .inr (j, i)

/-- one of `k` copies -/
def copy {k : ℕ} (body : List (Elem (E ⊕ I) F)) (j : Fin k) : List (Elem (E ⊕ (Fin k × I)) F) :=
  body.map fun e => { mf := e.mf, a := place j e.a, b := place j e.b, cur := fun v => e.cur (v ∘ place j) }

/-- the same voltages inside of every copy -/
def same {k : ℕ} (v : E ⊕ I → F) : E ⊕ (Fin k × I) → F
  | .inl x => v (.inl x)
  | .inr (_, i) => v (.inr i)

/-- what `k` copies draw -/
def drawsCopies (k : ℕ) (body : List (Elem (E ⊕ I) F)) (v : E ⊕ (Fin k × I) → F) (n : E ⊕ (Fin k × I)) : F :=
  ∑ j : Fin k, draws (copy body j) v n

theorem same_place {k : ℕ} (v : E ⊕ I → F) (j : Fin k) : same v ∘ place j = v := by
  funext n; cases n <;> rfl

theorem draws_times (k : ℕ) (body : List (Elem (E ⊕ I) F)) (v : E ⊕ I → F) (n : E ⊕ I) :
    draws (times k body) v n = k * draws body v n := by
  induction body with
  | nil => simp [times, draws]
  | cons e l ih =>
    simp only [times, draws, List.map_cons, List.sum_cons, List.map_map] at ih ⊢
    rw [ih]; ring

theorem draws_copy_out {k : ℕ} (body : List (Elem (E ⊕ I) F)) (v : E ⊕ I → F) (j : Fin k) (x : E) :
    draws (copy body j) (same v) (.inl x) = draws body v (.inl x) := by
  simp only [copy, draws, List.map_map]
  congr 1
  apply List.map_congr_left
  intro e _
  have hp : ∀ n : E ⊕ I, (place j n = Sum.inl x) ↔ n = Sum.inl x := by rintro (y | y) <;> simp [place]
  simp only [Function.comp_apply, hp, same_place]

theorem draws_copy_in {k : ℕ} (body : List (Elem (E ⊕ I) F)) (v : E ⊕ I → F) (j j' : Fin k) (i : I) :
    draws (copy body j) (same v) (.inr (j', i)) = if j = j' then draws body v (.inr i) else 0 := by
  simp only [copy, draws, List.map_map]
  by_cases hj : j = j'
  · subst hj
    rw [if_pos rfl]
    congr 1
    apply List.map_congr_left
    intro e _
    have hp : ∀ n : E ⊕ I, (place j n = Sum.inr (j, i)) ↔ n = Sum.inr i := by rintro (y | y) <;> simp [place]
    simp only [Function.comp_apply, hp, same_place]
  · rw [if_neg hj]
    have hp : ∀ n : E ⊕ I, ¬ (place j n = Sum.inr (j', i)) := by rintro (y | y) <;> simp [place, hj]
    apply List.sum_eq_zero
    intro x hx
    simp only [List.mem_map, Function.comp_apply, hp, if_false, sub_zero, zero_mul] at hx
    obtain ⟨_, _, rfl⟩ := hx
    rfl

/-- **C83, subcircuits.**  Voltages are a solution with a subcircuit of factor `k ≥ 1` exactly when they are, repeated in every copy,
a solution with `k` copies of it in parallel: whatever the elements are, linear or not, and whatever is outside (`rest`). -/
theorem copies_solve (k : ℕ) (hk : 0 < k) (body : List (Elem (E ⊕ I) F)) (rest : (E → F) → E → F) (v : E ⊕ I → F) :
    ((∀ x, rest (fun y => v (.inl y)) x + draws (times k body) v (.inl x) = 0) ∧ (∀ i, draws (times k body) v (.inr i) = 0)) ↔
    ((∀ x, rest (fun y => same (k := k) v (.inl y)) x + drawsCopies k body (same v) (.inl x) = 0) ∧
      (∀ j i, drawsCopies k body (same v) (.inr (j, i)) = 0)) := by
  have h1 : ∀ x, drawsCopies k body (same v) (.inl x) = draws (times k body) v (.inl x) := by
    intro x
    rw [drawsCopies, draws_times]
    simp [draws_copy_out]
  have h2 : ∀ j i, drawsCopies k body (same v) (.inr (j, i)) = draws body v (.inr i) := by
    intro j i
    rw [drawsCopies]
    simp [draws_copy_in]
  have hk' : (k : F) ≠ 0 := Nat.cast_ne_zero.mpr (by omega)
  constructor
  · rintro ⟨a, b⟩
    refine ⟨fun x => by rw [h1]; exact a x, fun j i => ?_⟩
    rw [h2]
    have := b i
    rw [draws_times] at this
    exact (mul_eq_zero.mp this).resolve_left hk'
  · rintro ⟨a, b⟩
    refine ⟨fun x => by rw [← h1]; exact a x, fun i => ?_⟩
    rw [draws_times, ← h2 ⟨0, hk⟩ i, b, mul_zero]

/-- two resistors in series inside, three times -/
example : let body : List (Elem (Bool ⊕ Unit) ℚ) :=
      [⟨1, .inl true, .inr (), fun v => v (.inl true) - v (.inr ())⟩, ⟨1, .inr (), .inl false, fun v => v (.inr ()) - v (.inl false)⟩]
    let v : Bool ⊕ Unit → ℚ := fun | .inl true => 2 | .inl false => 0 | .inr _ => 1
    (∀ i, draws (times 3 body) v (.inr i) = 0) ∧ draws (times 3 body) v (.inl true) = 3 := by
  refine ⟨fun i => ?_, ?_⟩ <;> simp [draws, times] <;> norm_num

end

/-! ## parameters by order, and `m` -/

/-- the parameter of the device a value given as argument number `j` is meant for -/
def meant (d : Dev) (j : ℕ) : Target := if d.com.isNone then (if j = 0 then .value else .sys (j - 1)) else .own j

/-- **C83, by order.**  For an element without a common (a resistor, a source) the first argument is the value, the next eight are the
system parameters in order, `$mfactor` first. -/
theorem order_element (n j : ℕ) (hj : j < n) :
    (byOrder ⟨true, none⟩ n)[j]? = some (if j < 9 then meant ⟨true, none⟩ j else .lost) := by
  simp only [byOrder, List.getElem?_map, List.getElem?_range hj, Option.map_some, Dev.set, Dev.count, Dev.compSet, Dev.compCount, meant]
  congr 1
  by_cases h0 : j = 0
  · subst h0; simp
  · by_cases h9 : j < 9
    · simp only [Bool.true_and, Option.isNone_none, if_true, h0, if_false, h9]
      rw [if_neg (by omega), if_pos (by omega), if_pos (by omega)]
      congr 1; omega
    · simp only [Bool.true_and, Option.isNone_none, if_true, h9, if_false]
      rw [if_neg (by omega), if_neg (by omega)]

/-- **C83, violated**: for every other component (a subcircuit, a diode) the first eight arguments are the system parameters: the first
one sets how many there are.  Those behind reach the parameters of the device if it was made by modelgen, and are refused for a
subcircuit. -/
theorem order_device (c : Com) (n j : ℕ) (hj : j < n) (ho : j < 8 + c.own) :
    (byOrder ⟨false, some c⟩ n)[j]? = some (if j < 8 then .sys j else if c.byIndex then .own (j - 8) else .refused) := by
  simp only [byOrder, List.getElem?_map, List.getElem?_range hj, Option.map_some, Dev.set, Dev.count, Dev.compSet, Dev.compCount,
    Com.set, Com.count, Bool.false_and, Bool.false_eq_true, if_false]
  congr 1
  by_cases h8 : j < 8
  · rw [if_pos (by omega), if_pos (by omega), if_pos h8]
    congr 1; omega
  · rw [if_neg (by omega), if_neg h8]
    cases hb : c.byIndex with
    | true =>
      rw [if_pos ⟨rfl, by omega, by omega⟩]
      simp only [if_true]
      congr 1; omega
    | false =>
      rw [if_neg (by simp), if_neg (by omega)]
      simp

/-- ... and for elements with a common (logic, switches, elements with a function) the first eight are refused. -/
theorem order_common (c : Com) (n j : ℕ) (hj : j < n) (ho : j < 8 + c.own) :
    (byOrder ⟨true, some c⟩ n)[j]? = some (if 8 ≤ j ∧ c.byIndex then .own (j - 8) else .refused) := by
  simp only [byOrder, List.getElem?_map, List.getElem?_range hj, Option.map_some, Dev.set, Dev.count, Dev.compCount,
    Com.set, Com.count, Option.isNone_some, Bool.and_false, Bool.false_eq_true, if_false, if_true]
  congr 1
  cases hb : c.byIndex with
  | true =>
    by_cases h8 : 8 ≤ j
    · rw [if_pos ⟨rfl, by omega, by omega⟩, if_pos ⟨h8, rfl⟩]
      congr 1; omega
    · rw [if_neg (by omega), if_neg (by omega), if_neg (by simp [h8])]
  | false =>
    rw [if_neg (by simp), if_neg (by omega), if_neg (by simp)]

/-- Behind the parameters of the common itself come those every common has. -/
theorem order_base (c : Com) (n j : ℕ) (hj : j < n) (ho : 8 + c.own ≤ j) (h11 : j < 11 + c.own) :
    (byOrder ⟨true, some c⟩ n)[j]? = some (.base (10 + c.own - j)) := by
  simp only [byOrder, List.getElem?_map, List.getElem?_range hj, Option.map_some, Dev.set, Dev.count, Dev.compCount,
    Com.set, Com.count, Option.isNone_some, Bool.and_false, Bool.false_eq_true, if_false, if_true]
  rw [if_neg (by omega), if_pos (by omega)]
  congr 2
  omega

example : (byOrder ⟨true, some ⟨2, true, fun _ => none⟩⟩ 12)[10]? = some (.base 2) := order_base _ 12 10 (by decide) (by decide) (by decide)

/-- No argument given by order to a component with a common reaches the parameter it is meant for. -/
theorem order_never (e : Bool) (c : Com) (n j : ℕ) (hj : j < n) (ho : j < 8 + c.own) :
    (byOrder ⟨e, some c⟩ n)[j]? ≠ some (meant ⟨e, some c⟩ j) := by
  cases e with
  | true =>
    rw [order_common c n j hj ho, meant]
    intro h
    simp only [Option.some.injEq, Option.isNone_some, Bool.false_eq_true, if_false] at h
    split at h
    · rename_i h8; simp only [Target.own.injEq] at h; omega
    · cases h
  | false =>
    rw [order_device c n j hj ho, meant]
    intro h
    simp only [Option.some.injEq, Option.isNone_some, Bool.false_eq_true, if_false] at h
    split at h
    · cases h
    · split at h
      · simp only [Target.own.injEq] at h; omega
      · cases h

/-- a diode has (area, perim, ...) parameters of its own; `#(2)` makes two of it -/
example : (byOrder ⟨false, some ⟨8, true, fun _ => none⟩⟩ 1)[0]? = some (.sys 0) :=
  order_device ⟨8, true, fun _ => none⟩ 1 0 (by decide) (by decide)

/-- **C83, by name.**  `$mfactor=` on a SPICE line sets the multiplicity, whatever parameters the device has. -/
theorem mfactor_name (c : Com) : spiceParam c ['$','m','f','a','c','t','o','r'] = .sys 0 := by
  rw [spiceParam, if_pos rfl, setByName, if_pos (by decide)]
  rfl

/-- `m=` sets it when the device has no parameter taken for that name, and that parameter when it has. -/
theorem m_name (c : Com) : spiceParam c ['m'] = match c.named ['m'] with | none => .sys 0 | some k => .own k := by
  rw [spiceParam, if_neg (by decide), if_pos rfl, setByName, if_neg (by decide)]
  cases c.named ['m'] with
  | none => rfl
  | some k => rfl

/-- **C83, violated**: a subcircuit takes every name for a parameter (e_paramlist.h:42), so that `m=` never sets its multiplicity,
whether it has a parameter `m` or not, and no wrong name is refused. -/
theorem m_subckt (c : Com) (h : ∀ name, (c.named name).isSome) :
    spiceParam c ['m'] ≠ .sys 0 ∧ ∀ name, spiceParam c name ≠ .refused := by
  constructor
  · rw [m_name]
    have := h ['m']
    cases hn : c.named ['m'] with
    | none => simp [hn] at this
    | some k => simp
  · intro name
    have hs : setByName c name ≠ .refused := by
      rw [setByName]
      split
      · simp
      · have := h name
        cases hn : c.named name with
        | none => simp [hn] at this
        | some k => simp
    rw [spiceParam]
    split
    · exact hs
    · split
      · cases hq : setByName c name with
        | refused => exact absurd hq hs
        | _ => simp
      · exact hs

example : spiceParam ⟨0, false, fun _ => some 0⟩ ['m'] = .own 0 := m_name _

/-- the index returned by `set_param_by_name` for a system parameter (e_compon.cc:729-731), where its attributes are kept, is the index
that parameter has -/
theorem sys_index (d : Dev) (w : ℕ) (hw : w < 8) (h : d.elem = true → d.com = none) :
    d.set (d.compCount - (w + 1)) = .sys w := by
  have hc : d.compSet (d.compCount - (w + 1)) = .sys w := by
    simp only [Dev.compSet]
    rw [if_pos (by omega), if_pos (by omega)]
    congr 1; omega
  rw [Dev.set]
  split
  · rename_i he
    rw [h he]
    simp only [Dev.count, he, h he]
    rw [if_neg (by simp; omega)]
    exact hc
  · exact hc

example : (⟨true, none⟩ : Dev).set 7 = .sys 0 := sys_index ⟨true, none⟩ 0 (by decide) (fun _ => rfl)

end Gnucap.Mult
