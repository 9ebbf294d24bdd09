import Mathlib.Algebra.BigOperators.Group.Finset.Piecewise
import Mathlib.Algebra.Order.BigOperators.Group.Finset
import Mathlib.Data.Fintype.EquivFin
import Mathlib.Order.WellFounded
import Mathlib.Data.Set.Finite.Basic
import Mathlib.Tactic.Ring
import Verif.RefModel

/-!
# Counts of shared objects
-/
set_option linter.unusedSectionVars false
set_option linter.unusedSimpArgs false
namespace Gnucap.Ref

variable {V : Type}

/-! ## specification -/

/-- Slots of the object `p` that point at `x`. -/
def kidRefs (h : Heap V) (p x : ℕ) : ℕ := match h.cell p with
  | none => 0
  | some c => c.kids.count (some x)

/-- All slots that point at `x`. -/
def refs (h : Heap V) (x : ℕ) : ℕ := h.roots.count (some x) + ∑ p ∈ Finset.range h.next, kidRefs h p x

/-- Every count is the number of slots that point there (and a big number more if static); nothing points
at a released object.  `pend` are references that are being given back. -/
structure Inv (h : Heap V) (pend : List (Option ℕ)) : Prop where
  fresh : ∀ x, h.next ≤ x → h.cell x = none
  count : ∀ x c, h.cell x = some c → c.count = (if c.static then ccStatic else 0) + refs h x + pend.count (some x)
  live : ∀ x, 0 < refs h x + pend.count (some x) → h.cell x ≠ none

/-- `p` has a slot that points at `c`. -/
def Edge (h : Heap V) (p c : ℕ) : Prop := ∃ k, h.cell p = some k ∧ some c ∈ k.kids

/-- `y` is `x` or can be reached from `x`. -/
def Reach (h : Heap V) : ℕ → ℕ → Prop := Relation.ReflTransGen (Edge h)

/-- No object contains itself, directly or not. -/
def Acyclic (h : Heap V) : Prop := ∀ x, ¬ Relation.TransGen (Edge h) x x

/-- What keeps an object in use from the outside: a slot, or it is static, or somebody has just made it. -/
def Anchor (h : Heap V) (r : ℕ) : Prop :=
  (∃ c, h.cell r = some c ∧ (c.count = 0 ∨ c.static = true)) ∨ some r ∈ h.roots

/-- made, and neither attached nor deleted yet -/
def Idle (h : Heap V) (x : ℕ) : Prop := ∃ c, h.cell x = some c ∧ c.count = 0

/-- The slot exists. -/
def Valid (h : Heap V) : Loc → Prop
  | .root i => i < h.roots.length
  | .kid p i => ∃ c, h.cell p = some c ∧ i < c.kids.length

/-- What the caller has to take care of.  Attaching `y` where something else was attached: `y` must be
kept in use by something else than that slot. -/
def Legal (h : Heap V) : Op V → Prop
  | .create _ kids => ∀ x, some x ∈ kids → h.cell x ≠ none
  | .newSlot => True
  | .attach l c => Valid h l ∧ ∀ y, c = some y → h.cell y ≠ none ∧
      (h.get l = none ∨ ∃ r, Anchor (h.set l none) r ∧ Reach (h.set l none) r y) ∧
      ∀ p i, l = .kid p i → ¬ Reach h y p
  | .detach l => Valid h l
  | .delete y => Idle h y
  | .setVal y _ => h.cell y ≠ none

def LegalRun (same : V → V → Bool) : List (Op V) → Heap V → Prop
  | [], _ => True
  | o :: r, h => Legal h o ∧ ∀ h', step same o h = some h' → LegalRun same r h'

/-! ## sums -/

theorem sum_change (f g : ℕ → ℕ) (n p : ℕ) (hp : p < n) (h : ∀ i, i ≠ p → f i = g i) :
    ∑ i ∈ Finset.range n, f i + g p = ∑ i ∈ Finset.range n, g i + f p := by
  have hm : p ∈ Finset.range n := Finset.mem_range.mpr hp
  rw [← Finset.add_sum_erase _ f hm, ← Finset.add_sum_erase _ g hm]
  have : ∑ i ∈ (Finset.range n).erase p, f i = ∑ i ∈ (Finset.range n).erase p, g i :=
    Finset.sum_congr rfl fun i hi => h i (Finset.ne_of_mem_erase hi)
  omega

theorem put_cell_self (h : Heap V) (x : ℕ) (c : Option (Cell V)) : (h.put x c).cell x = c := by
  simp [Heap.put]

theorem put_cell_ne (h : Heap V) (x y : ℕ) (c : Option (Cell V)) (hy : y ≠ x) : (h.put x c).cell y = h.cell y := by
  simp [Heap.put, Function.update_of_ne hy]

theorem kidRefs_put_ne (h : Heap V) (x p y : ℕ) (c : Option (Cell V)) (hp : p ≠ x) :
    kidRefs (h.put x c) p y = kidRefs h p y := by
  unfold kidRefs
  rw [put_cell_ne _ _ _ _ hp]

/-- Writing an object changes the references by those within that object. -/
theorem refs_put (h : Heap V) (x : ℕ) (hx : x < h.next) (c : Option (Cell V)) (y : ℕ) :
    refs (h.put x c) y + kidRefs h x y = refs h y + kidRefs (h.put x c) x y := by
  have := sum_change (fun p => kidRefs (h.put x c) p y) (fun p => kidRefs h p y) h.next x hx
    (fun i hi => kidRefs_put_ne h x i y c hi)
  unfold refs
  have e1 : (h.put x c).roots = h.roots := rfl
  have e2 : (h.put x c).next = h.next := rfl
  rw [e1, e2]
  omega

theorem refs_put_kids (h : Heap V) (x : ℕ) (hx : x < h.next) (c c' : Cell V) (hc : h.cell x = some c)
    (hk : c'.kids = c.kids) (y : ℕ) : refs (h.put x (some c')) y = refs h y := by
  have h1 := refs_put h x hx (some c') y
  have h2 : kidRefs (h.put x (some c')) x y = kidRefs h x y := by
    unfold kidRefs
    rw [put_cell_self, hc]
    simp only [hk]
  omega

theorem refs_put_none (h : Heap V) (x : ℕ) (hx : x < h.next) (c : Cell V) (hc : h.cell x = some c) (y : ℕ) :
    refs (h.put x none) y + c.kids.count (some y) = refs h y := by
  have h1 := refs_put h x hx none y
  have h2 : kidRefs (h.put x none) x y = 0 := by
    unfold kidRefs
    rw [put_cell_self]
  have h3 : kidRefs h x y = c.kids.count (some y) := by
    unfold kidRefs
    rw [hc]
  omega

theorem size_put (h : Heap V) (x : ℕ) (hx : x < h.next) (c : Option (Cell V)) :
    (h.put x c).size + h.slots x = h.size + (h.put x c).slots x := by
  unfold Heap.size
  exact sum_change (fun p => (h.put x c).slots p) (fun p => h.slots p) h.next x hx fun i hi => by
    simp only [Heap.slots]
    rw [put_cell_ne _ _ _ _ hi]

theorem lt_next (h : Heap V) (pend) (hi : Inv h pend) (x : ℕ) (hx : h.cell x ≠ none) : x < h.next := by
  by_contra hc
  exact hx (hi.fresh x (not_lt.mp hc))

/-! ## giving back -/

/-- The same object up to its count. -/
def Same (a b : Option (Cell V)) : Prop :=
  ∃ c c', a = some c ∧ b = some c' ∧ c'.val = c.val ∧ c'.kids = c.kids ∧ c'.static = c.static

/-- What `release` does. -/
theorem release_spec (n : ℕ) (pend : List (Option ℕ)) (h : Heap V) (hi : Inv h pend) (hn : pend.length + h.size ≤ n) :
    ∃ h', release n pend h = some h' ∧ Inv h' [] ∧ h'.roots = h.roots ∧ h'.next = h.next ∧
      (∀ y, h'.cell y = none ∨ Same (h.cell y) (h'.cell y)) ∧
      (∀ y, Idle h y → h'.cell y = h.cell y) ∧ (∀ y, Idle h' y → Idle h y) ∧
      (∀ y, (∀ x, some x ∈ pend → ¬ Reach h x y) → h'.cell y = h.cell y) ∧
      (∀ y c, h.cell y = some c → c.static = true → h'.cell y ≠ none) := by
  induction n generalizing pend h with
  | zero =>
    cases pend with
    | nil =>
      exact ⟨h, rfl, hi, rfl, rfl, fun y => by
        cases hy : h.cell y with
        | none => exact Or.inl rfl
        | some c => exact Or.inr ⟨c, c, rfl, rfl, rfl, rfl, rfl⟩, fun _ _ => rfl, fun _ hy => hy, fun _ _ => rfl,
        fun y c hc _ => by simp [hc]⟩
    | cons a r => simp at hn
  | succ n ih =>
    cases pend with
    | nil =>
      exact ⟨h, by simp [release], hi, rfl, rfl, fun y => by
        cases hy : h.cell y with
        | none => exact Or.inl rfl
        | some c => exact Or.inr ⟨c, c, rfl, rfl, rfl, rfl, rfl⟩, fun _ _ => rfl, fun _ hy => hy, fun _ _ => rfl,
        fun y c hc _ => by simp [hc]⟩
    | cons a r =>
      simp only [List.length_cons] at hn
      cases a with
      | none =>
        have hi' : Inv h r := by
          refine ⟨hi.fresh, fun x c hc => ?_, fun x hx => hi.live x ?_⟩
          · have := hi.count x c hc
            rw [List.count_cons_of_ne (by simp)] at this
            exact this
          · rw [List.count_cons_of_ne (by simp)]
            exact hx
        obtain ⟨h', h1, h2, h3, h4, h5, h6, h7, h8, h20⟩ := ih r h hi' (by omega)
        refine ⟨h', ?_, h2, h3, h4, h5, h6, h7, fun y hy => h8 y fun x hx => hy x (List.mem_cons_of_mem _ hx), h20⟩
        simp only [release]
        exact h1
      | some x =>
        have hl : h.cell x ≠ none := hi.live x (by
          rw [List.count_cons_self]
          omega)
        obtain ⟨c, hc⟩ := Option.ne_none_iff_exists'.mp hl
        have hx := lt_next h _ hi x hl
        have hcount := hi.count x c hc
        rw [List.count_cons_self] at hcount
        have hc0 : c.count ≠ 0 := by omega
        by_cases h1c : c.count = 1
        · -- the last reference
          have hst : c.static = false := by
            by_contra hs
            rw [Bool.not_eq_false] at hs
            rw [hs, if_pos rfl] at hcount
            simp only [ccStatic] at hcount
            omega
          rw [hst] at hcount
          simp only [Bool.false_eq_true, if_false] at hcount
          have hcell : ∀ y, y ≠ x → (h.put x none).cell y = h.cell y := fun y hy => put_cell_ne _ _ _ _ hy
          have hi' : Inv (h.put x none) (c.kids ++ r) := by
            refine ⟨fun y hy => ?_, fun y d hd => ?_, fun y hy => ?_⟩
            · by_cases hyx : y = x
              · rw [hyx, put_cell_self]
              · rw [hcell y hyx]
                exact hi.fresh y hy
            · have hyx : y ≠ x := by
                rintro rfl
                rw [put_cell_self] at hd
                cases hd
              rw [hcell y hyx] at hd
              have h1 := hi.count y d hd
              have h2 := refs_put_none h x hx c hc y
              rw [List.count_cons_of_ne (by simpa using Ne.symm hyx)] at h1
              rw [List.count_append]
              omega
            · have h2 := refs_put_none h x hx c hc y
              rw [List.count_append] at hy
              have hyx : y ≠ x := by
                rintro rfl
                omega
              rw [hcell y hyx]
              refine hi.live y ?_
              rw [List.count_cons_of_ne (by simpa using Ne.symm hyx)]
              omega
          have hsz := size_put h x hx none
          have hs1 : h.slots x = c.kids.length := by
            unfold Heap.slots
            rw [hc]
          have hs2 : (h.put x none).slots x = 0 := by
            unfold Heap.slots
            rw [put_cell_self]
          obtain ⟨h', h1, h2, h3, h4, h5, h6, h7, h8, h20⟩ := ih (c.kids ++ r) (h.put x none) hi' (by
            rw [List.length_append]
            omega)
          refine ⟨h', ?_, h2, h3, h4, fun y => ?_, fun y hy => ?_, fun y hy => ?_, fun y hy => ?_, fun y d hd hs => ?_⟩
          rotate_left 5
          · have hyx : y ≠ x := by
              rintro rfl
              rw [hc] at hd
              cases hd
              rw [hst] at hs
              cases hs
            exact h20 y d (by rw [hcell y hyx]; exact hd) hs
          · simp only [release, hc, if_neg hc0, if_pos h1c]
            exact h1
          · rcases h5 y with h9 | h9
            · exact Or.inl h9
            · by_cases hyx : y = x
              · obtain ⟨_, _, h10, _⟩ := h9
                rw [hyx, put_cell_self] at h10
                cases h10
              · rw [hcell y hyx] at h9
                exact Or.inr h9
          · have hyx : y ≠ x := by
              rintro rfl
              obtain ⟨d, hd, hd0⟩ := hy
              rw [hc] at hd
              cases hd
              exact hc0 hd0
            rw [h6 y (by
              unfold Idle
              rw [hcell y hyx]
              exact hy), hcell y hyx]
          · obtain ⟨d, hd, hd0⟩ := h7 y hy
            have hyx : y ≠ x := by
              rintro rfl
              rw [put_cell_self] at hd
              cases hd
            rw [hcell y hyx] at hd
            exact ⟨d, hd, hd0⟩
          · have hyx : y ≠ x := by
              rintro rfl
              exact hy y (List.mem_cons_self ..) .refl
            have hsub : ∀ a b, Edge (h.put x none) a b → Edge h a b := by
              rintro a b ⟨k, hk, hkb⟩
              have hax : a ≠ x := by
                rintro rfl
                rw [put_cell_self] at hk
                cases hk
              rw [hcell a hax] at hk
              exact ⟨k, hk, hkb⟩
            rw [h8 y ?_, hcell y hyx]
            intro z hz hr
            have hr' : Reach h z y := Relation.ReflTransGen.mono hsub _ _ hr
            rcases List.mem_append.mp hz with hz | hz
            · exact hy x (List.mem_cons_self ..) (Relation.ReflTransGen.head ⟨c, hc, hz⟩ hr')
            · exact hy z (List.mem_cons_of_mem _ hz) hr'
        · -- others remain
          set c' : Cell V := { c with count := c.count - 1 } with hc'
          have hcell : ∀ y, y ≠ x → (h.put x (some c')).cell y = h.cell y := fun y hy => put_cell_ne _ _ _ _ hy
          have hrefs := fun y => refs_put_kids h x hx c c' hc rfl y
          have hi' : Inv (h.put x (some c')) r := by
            refine ⟨fun y hy => ?_, fun y d hd => ?_, fun y hy => ?_⟩
            · have hyx : y ≠ x := by
                rintro rfl
                exact hl (hi.fresh _ hy)
              rw [hcell y hyx]
              exact hi.fresh y hy
            · rw [hrefs y]
              by_cases hyx : y = x
              · subst hyx
                rw [put_cell_self] at hd
                cases hd
                simp only [hc']
                omega
              · rw [hcell y hyx] at hd
                have h1 := hi.count y d hd
                rw [List.count_cons_of_ne (by simpa using Ne.symm hyx)] at h1
                exact h1
            · rw [hrefs y] at hy
              by_cases hyx : y = x
              · rw [hyx, put_cell_self]
                simp
              · rw [hcell y hyx]
                refine hi.live y ?_
                rw [List.count_cons_of_ne (by simpa using Ne.symm hyx)]
                exact hy
          have hsz := size_put h x hx (some c')
          have hs1 : h.slots x = c.kids.length := by
            unfold Heap.slots
            rw [hc]
          have hs2 : (h.put x (some c')).slots x = c.kids.length := by
            unfold Heap.slots
            rw [put_cell_self]
          obtain ⟨h', h1, h2, h3, h4, h5, h6, h7, h8, h20⟩ := ih r (h.put x (some c')) hi' (by omega)
          refine ⟨h', ?_, h2, h3, h4, fun y => ?_, fun y hy => ?_, fun y hy => ?_, fun y hy => ?_, fun y d hd hs => ?_⟩
          rotate_left 5
          · by_cases hyx : y = x
            · subst hyx
              rw [hc] at hd
              cases hd
              exact h20 y c' (put_cell_self ..) hs
            · exact h20 y d (by rw [hcell y hyx]; exact hd) hs
          · simp only [release, hc, if_neg hc0, if_neg h1c]
            exact h1
          · rcases h5 y with h9 | h9
            · exact Or.inl h9
            · by_cases hyx : y = x
              · subst hyx
                obtain ⟨d, d', h10, h11, h12, h13, h14⟩ := h9
                rw [put_cell_self] at h10
                cases h10
                exact Or.inr ⟨c, d', hc, h11, h12, h13, h14⟩
              · rw [hcell y hyx] at h9
                exact Or.inr h9
          · have hyx : y ≠ x := by
              rintro rfl
              obtain ⟨d, hd, hd0⟩ := hy
              rw [hc] at hd
              cases hd
              exact hc0 hd0
            rw [h6 y (by
              unfold Idle
              rw [hcell y hyx]
              exact hy), hcell y hyx]
          · obtain ⟨d, hd, hd0⟩ := h7 y hy
            have hyx : y ≠ x := by
              rintro rfl
              rw [put_cell_self] at hd
              cases hd
              simp only [hc'] at hd0
              omega
            rw [hcell y hyx] at hd
            exact ⟨d, hd, hd0⟩
          · have hyx : y ≠ x := by
              rintro rfl
              exact hy y (List.mem_cons_self ..) .refl
            have hsub : ∀ a b, Edge (h.put x (some c')) a b → Edge h a b := by
              rintro a b ⟨k, hk, hkb⟩
              by_cases hax : a = x
              · subst hax
                rw [put_cell_self] at hk
                cases hk
                exact ⟨c, hc, hkb⟩
              · rw [hcell a hax] at hk
                exact ⟨k, hk, hkb⟩
            rw [h8 y ?_, hcell y hyx]
            intro z hz hr
            exact hy z (List.mem_cons_of_mem _ hz) (Relation.ReflTransGen.mono hsub _ _ hr)

/-! ## slots -/

theorem count_set' (l : List (Option ℕ)) (i : ℕ) (hi : i < l.length) (v : Option ℕ) (y : ℕ) :
    (l.set i v).count (some y) + (if (l[i]?).join = some y then 1 else 0) =
      l.count (some y) + (if v = some y then 1 else 0) := by
  rw [List.count_set hi, List.getElem?_eq_getElem hi]
  simp only [Option.join_some, beq_iff_eq]
  by_cases h : l[i] = some y
  · have : 0 < l.count (some y) := List.count_pos_iff.mpr (h ▸ List.getElem_mem hi)
    rw [if_pos h]
    omega
  · rw [if_neg h]
    omega

theorem set_cell (h : Heap V) (l : Loc) (v : Option ℕ) (y : ℕ) :
    (h.set l v).cell y = none ∧ h.cell y = none ∨
    ∃ c c', h.cell y = some c ∧ (h.set l v).cell y = some c' ∧ c'.count = c.count ∧ c'.static = c.static ∧ c'.val = c.val := by
  have triv : h.cell y = none ∧ h.cell y = none ∨
      ∃ c c', h.cell y = some c ∧ h.cell y = some c' ∧ c'.count = c.count ∧ c'.static = c.static ∧ c'.val = c.val := by
    cases hy : h.cell y with
    | none => exact Or.inl ⟨rfl, rfl⟩
    | some c => exact Or.inr ⟨c, c, rfl, rfl, rfl, rfl, rfl⟩
  cases l with
  | root i => exact triv
  | kid p i =>
    simp only [Heap.set]
    cases hp : h.cell p with
    | none => exact triv
    | some c =>
      simp only
      by_cases hyp : y = p
      · subst hyp
        rw [put_cell_self]
        exact Or.inr ⟨c, _, hp, rfl, rfl, rfl, rfl⟩
      · rw [put_cell_ne _ _ _ _ hyp]
        exact triv

theorem set_next (h : Heap V) (l : Loc) (v : Option ℕ) : (h.set l v).next = h.next := by
  cases l with
  | root i => rfl
  | kid p i =>
    simp only [Heap.set]
    cases h.cell p <;> rfl

theorem refs_set (h : Heap V) (pend) (hi : Inv h pend) (l : Loc) (hv : Valid h l) (v : Option ℕ) (y : ℕ) :
    refs (h.set l v) y + (if h.get l = some y then 1 else 0) = refs h y + (if v = some y then 1 else 0) := by
  cases l with
  | root i =>
    have h1 := count_set' h.roots i hv v y
    have h2 : refs (h.set (.root i) v) y =
        (h.roots.set i v).count (some y) + ∑ p ∈ Finset.range h.next, kidRefs h p y := rfl
    have h3 : h.get (.root i) = (h.roots[i]?).join := rfl
    rw [h2, h3]
    unfold refs
    omega
  | kid p i =>
    obtain ⟨c, hc, hl⟩ := hv
    have hp := lt_next h _ hi p (by simp [hc])
    have h1 := count_set' c.kids i hl v y
    have h2 := refs_put h p hp (some { c with kids := c.kids.set i v }) y
    have h3 : kidRefs h p y = c.kids.count (some y) := by
      unfold kidRefs
      rw [hc]
    have h4 : kidRefs (h.put p (some { c with kids := c.kids.set i v })) p y = (c.kids.set i v).count (some y) := by
      unfold kidRefs
      rw [put_cell_self]
    have h5 : h.set (.kid p i) v = h.put p (some { c with kids := c.kids.set i v }) := by
      simp only [Heap.set, hc]
    have h6 : h.get (.kid p i) = (c.kids[i]?).join := by
      simp only [Heap.get, hc, Option.bind_some]
    rw [h5, h6]
    omega

theorem inv_set (h : Heap V) (pend) (hi : Inv h pend) (l : Loc) (hv : Valid h l) (v : Option ℕ) (pend' : List (Option ℕ))
    (hp : ∀ y, pend'.count (some y) + (if v = some y then 1 else 0) = pend.count (some y) + (if h.get l = some y then 1 else 0)) :
    Inv (h.set l v) pend' := by
  refine ⟨fun x hx => ?_, fun x c hc => ?_, fun x hx => ?_⟩
  · rw [set_next] at hx
    rcases set_cell h l v x with h1 | ⟨c, c', h1, h2, _⟩
    · exact h1.1
    · rw [hi.fresh x hx] at h1
      cases h1
  · rcases set_cell h l v x with h1 | ⟨d, d', h1, h2, h3, h4, _⟩
    · rw [h1.1] at hc
      cases hc
    · rw [h2] at hc
      cases hc
      have := hi.count x d h1
      have := refs_set h pend hi l hv v x
      have := hp x
      rw [h3, h4]
      omega
  · have h1 := refs_set h pend hi l hv v x
    have h2 := hp x
    have h3 := hi.live x (by omega)
    rcases set_cell h l v x with h4 | ⟨c, c', h4, h5, _⟩
    · exact absurd h4.2 h3
    · rw [h5]
      simp

theorem incr_spec (h : Heap V) (pend) (hi : Inv h pend) (y : ℕ) (c : Cell V) (hy : h.cell y = some c) :
    incr y h = some (h.put y (some { c with count := c.count + 1 })) ∧
    Inv (h.put y (some { c with count := c.count + 1 })) (some y :: pend) := by
  refine ⟨by simp only [incr, hy], ?_⟩
  have hl := lt_next h _ hi y (by simp [hy])
  have hrefs := fun z => refs_put_kids h y hl c { c with count := c.count + 1 } hy rfl z
  refine ⟨fun x hx => ?_, fun x d hd => ?_, fun x hx => ?_⟩
  · have hxy : x ≠ y := by
      rintro rfl
      have : h.next ≤ x := hx
      omega
    rw [put_cell_ne _ _ _ _ hxy]
    exact hi.fresh x hx
  · rw [hrefs]
    by_cases hxy : x = y
    · subst hxy
      rw [put_cell_self] at hd
      cases hd
      have := hi.count x c hy
      rw [List.count_cons_self]
      simp only
      omega
    · rw [put_cell_ne _ _ _ _ hxy] at hd
      have := hi.count x d hd
      rw [List.count_cons_of_ne (by simpa using Ne.symm hxy)]
      exact this
  · rw [hrefs] at hx
    by_cases hxy : x = y
    · rw [hxy, put_cell_self]
      simp
    · rw [put_cell_ne _ _ _ _ hxy]
      rw [List.count_cons_of_ne (by simpa using Ne.symm hxy)] at hx
      exact hi.live x hx

/-! ## operations -/

/-- `detach_common`: nothing but the slot and what is not used any more goes away. -/
theorem detach_spec (l : Loc) (h : Heap V) (hi : Inv h []) (hv : Valid h l) :
    ∃ h', detach l h = some h' ∧ Inv h' [] ∧ h'.next = h.next ∧ h'.roots = (h.set l none).roots ∧
      (∀ y, h'.cell y = none ∨ Same ((h.set l none).cell y) (h'.cell y)) ∧
      (∀ y, Idle h' y → Idle (h.set l none) y) ∧ (∀ y, Idle (h.set l none) y → h'.cell y = (h.set l none).cell y) ∧
      (∀ y, (∀ x, h.get l = some x → ¬ Reach (h.set l none) x y) → h'.cell y = (h.set l none).cell y) ∧
      (∀ y c, (h.set l none).cell y = some c → c.static = true → h'.cell y ≠ none) := by
  cases hg : h.get l with
  | none =>
    have hset : ∀ y, (h.set l none).cell y = h.cell y := by
      intro y
      cases l with
      | root i => rfl
      | kid p i =>
        obtain ⟨c, hc, hl⟩ := hv
        have h1 : c.kids.set i none = c.kids := by
          have : h.get (.kid p i) = (c.kids[i]?).join := by
            simp only [Heap.get, hc, Option.bind_some]
          rw [hg, List.getElem?_eq_getElem hl, Option.join_some] at this
          rw [this]
          exact List.set_getElem_self hl
        simp only [Heap.set, hc, h1]
        by_cases hyp : y = p
        · rw [hyp, put_cell_self, hc]
        · rw [put_cell_ne _ _ _ _ hyp]
    have hroots : h.roots = (h.set l none).roots := by
      cases l with
      | root i =>
        have : h.get (.root i) = (h.roots[i]?).join := rfl
        have hl : i < h.roots.length := hv
        rw [hg, List.getElem?_eq_getElem hl, Option.join_some] at this
        simp only [Heap.set]
        rw [this]
        exact (List.set_getElem_self hl).symm
      | kid p i =>
        simp only [Heap.set]
        cases h.cell p <;> rfl
    refine ⟨h, by simp only [detach, hg], hi, rfl, hroots, fun y => ?_, fun y hy => ?_, fun y _ => (hset y).symm, fun y _ => (hset y).symm,
      fun y c hc _ => by rw [← hset y, hc]; simp⟩
    · rw [hset y]
      cases hy : h.cell y with
      | none => exact Or.inl rfl
      | some c => exact Or.inr ⟨c, c, rfl, rfl, rfl, rfl, rfl⟩
    · obtain ⟨c, h1, h2⟩ := hy
      exact ⟨c, by rw [hset y]; exact h1, h2⟩
  | some x =>
    have hi' : Inv (h.set l none) [some x] := inv_set h [] hi l hv none [some x] fun y => by
      rw [hg]
      simp [List.count_cons]
    obtain ⟨h', h1, h2, h3, h4, h5, h6, h7, h8, h20⟩ :=
      release_spec (1 + (h.set l none).size) [some x] (h.set l none) hi' (by simp)
    refine ⟨h', by simp only [detach, hg]; exact h1, h2, by rw [h4, set_next], h3, h5, h7, h6, fun y hy => h8 y fun z hz => ?_, h20⟩
    rw [List.mem_singleton] at hz
    cases hz
    exact hy x rfl

theorem edge_set_none (h : Heap V) (l : Loc) (a b : ℕ) (he : Edge (h.set l none) a b) : Edge h a b := by
  cases l with
  | root i => exact he
  | kid p i =>
    simp only [Heap.set] at he
    cases hp : h.cell p with
    | none =>
      rw [hp] at he
      exact he
    | some c =>
      rw [hp] at he
      obtain ⟨k, hk, hb⟩ := he
      simp only at hk
      by_cases hap : a = p
      · subst hap
        rw [put_cell_self] at hk
        cases hk
        refine ⟨c, hp, ?_⟩
        simp only at hb
        rcases List.mem_or_eq_of_mem_set hb with h1 | h1
        · exact h1
        · cases h1
      · rw [put_cell_ne _ _ _ _ hap] at hk
        exact ⟨k, hk, hb⟩

/-- The object that contains the slot is still there afterwards. -/
theorem detach_parent_survives (p i : ℕ) (h h' : Heap V) (hi : Inv h []) (ha : Acyclic h) (hv : Valid h (.kid p i))
    (hd : detach (.kid p i) h = some h') : Valid h' (.kid p i) := by
  obtain ⟨h'', h1, _, _, _, _, _, _, h8, _⟩ := detach_spec (.kid p i) h hi hv
  rw [hd] at h1
  cases h1
  obtain ⟨c, hc, hl⟩ := hv
  have h9 := h8 p fun x hx hr => by
    have hr' : Reach h x p := Relation.ReflTransGen.mono (edge_set_none h _) _ _ hr
    have he : Edge h p x := by
      have h1 : h.get (.kid p i) = (c.kids[i]?).join := by
        simp only [Heap.get, hc, Option.bind_some]
      rw [hx, List.getElem?_eq_getElem hl, Option.join_some] at h1
      exact ⟨c, hc, h1 ▸ List.getElem_mem hl⟩
    exact ha p (Relation.TransGen.head' he hr')
  have h10 : (h.set (.kid p i) none).cell p = some { c with kids := c.kids.set i none } := by
    simp only [Heap.set, hc]
    exact put_cell_self ..
  refine ⟨_, h9.trans h10, ?_⟩
  simp only [List.length_set]
  exact hl

theorem valid_root_mono (h h' : Heap V) (i : ℕ) (hr : h'.roots.length = h.roots.length) (hv : Valid h (.root i)) :
    Valid h' (.root i) := by
  simp only [Valid] at hv ⊢
  omega

theorem set_roots_length (h : Heap V) (l : Loc) (v : Option ℕ) : (h.set l v).roots.length = h.roots.length := by
  cases l with
  | root i => simp [Heap.set]
  | kid p i =>
    simp only [Heap.set]
    cases h.cell p <;> rfl

/-- what reaches from something in use is in use -/
theorem reach_live (h : Heap V) (pend) (hi : Inv h pend) (a b : ℕ) (hr : Reach h a b) (ha : h.cell a ≠ none) : h.cell b ≠ none := by
  induction hr with
  | refl => exact ha
  | tail _ he ih =>
    obtain ⟨k, hk, hb⟩ := he
    rename_i p q _
    refine hi.live q ?_
    have h1 : 0 < kidRefs h p q := by
      unfold kidRefs
      rw [hk]
      exact List.count_pos_iff.mpr hb
    have h2 : kidRefs h p q ≤ ∑ i ∈ Finset.range h.next, kidRefs h i q :=
      Finset.single_le_sum (f := fun i => kidRefs h i q) (fun _ _ => Nat.zero_le _)
        (Finset.mem_range.mpr (lt_next h _ hi p (by simp [hk])))
    unfold refs
    omega

theorem root_live (h : Heap V) (pend) (hi : Inv h pend) (r : ℕ) (hr : some r ∈ h.roots) : h.cell r ≠ none := by
  refine hi.live r ?_
  have := List.count_pos_iff.mpr hr
  unfold refs
  omega

theorem anchor_live (h : Heap V) (pend) (hi : Inv h pend) (r : ℕ) (hr : Anchor h r) : h.cell r ≠ none := by
  rcases hr with ⟨c, hc, _⟩ | hr
  · simp [hc]
  · exact root_live h pend hi r hr

/-- What is kept in use by something else than the slot survives when the slot is cleared. -/
theorem detach_keeps (l : Loc) (h h' : Heap V) (hi : Inv h []) (hv : Valid h l) (hd : detach l h = some h')
    (r y : ℕ) (hr : Anchor (h.set l none) r) (hy : Reach (h.set l none) r y) : h'.cell y ≠ none := by
  obtain ⟨h'', h1, h2, h3, h4, h5, h6, h7, h8, h20⟩ := detach_spec l h hi hv
  rw [hd] at h1
  cases h1
  have hrl : h'.cell r ≠ none := by
    rcases hr with ⟨c, hc, h9⟩ | h9
    · by_cases h10 : c.count = 0
      · rw [h7 r ⟨c, hc, h10⟩, hc]
        simp
      · have hst : c.static = true := h9.resolve_left h10
        exact h20 r c hc hst
    · exact root_live h' [] h2 r (by rw [h4]; exact h9)
  have hsub : ∀ a b, h'.cell a ≠ none → Edge (h.set l none) a b → Edge h' a b := by
    rintro a b ha ⟨k, hk, hb⟩
    rcases h5 a with h9 | ⟨c, c', h9, h10, _, h11, _⟩
    · exact absurd h9 ha
    · rw [hk] at h9
      cases h9
      exact ⟨c', h10, by rw [h11]; exact hb⟩
  induction hy with
  | refl => exact hrl
  | tail _ he ih => exact reach_live h' [] h2 _ _ (.single (hsub _ _ ih he)) ih

theorem edge_same (h h' : Heap V) (hs : ∀ y, h'.cell y = none ∨ Same (h.cell y) (h'.cell y)) (a b : ℕ) (he : Edge h' a b) : Edge h a b := by
  obtain ⟨k, hk, hb⟩ := he
  rcases hs a with h1 | ⟨c, c', h1, h2, _, h3, _⟩
  · rw [h1] at hk
    cases hk
  · rw [h2] at hk
    cases hk
    exact ⟨c, h1, by rw [← h3]; exact hb⟩

theorem acyclic_mono (h h' : Heap V) (hs : ∀ a b, Edge h' a b → Edge h a b) (ha : Acyclic h) : Acyclic h' :=
  fun x hx => ha x (Relation.TransGen.mono hs _ _ hx)

theorem acyclic_add (h h' : Heap V) (p y : ℕ) (hs : ∀ a b, Edge h' a b → Edge h a b ∨ (a = p ∧ b = y)) (hr : ¬ Reach h y p)
    (ha : Acyclic h) : Acyclic h' := by
  have key : ∀ a b, Relation.TransGen (Edge h') a b → Relation.TransGen (Edge h) a b ∨ (Reach h a p ∧ Reach h y b) := by
    intro a b hab
    induction hab with
    | single he =>
      rcases hs _ _ he with h1 | ⟨rfl, rfl⟩
      · exact Or.inl (.single h1)
      · exact Or.inr ⟨.refl, .refl⟩
    | tail _ he ih =>
      rcases hs _ _ he with h1 | ⟨rfl, rfl⟩
      · rcases ih with h2 | ⟨h2, h3⟩
        · exact Or.inl (h2.tail h1)
        · exact Or.inr ⟨h2, h3.tail h1⟩
      · rcases ih with h2 | ⟨h2, h3⟩
        · exact Or.inr ⟨h2.to_reflTransGen, .refl⟩
        · exact Or.inr ⟨h2, .refl⟩
  intro x hx
  rcases key x x hx with h1 | ⟨h1, h2⟩
  · exact ha x h1
  · exact hr (h2.trans h1)

theorem get_put_kids (h : Heap V) (y : ℕ) (c c' : Cell V) (hc : h.cell y = some c) (hk : c'.kids = c.kids) (l : Loc) :
    (h.put y (some c')).get l = h.get l ∧ (Valid h l → Valid (h.put y (some c')) l) := by
  cases l with
  | root i => exact ⟨rfl, id⟩
  | kid p i =>
    by_cases hp : p = y
    · subst hp
      constructor
      · simp only [Heap.get, put_cell_self, hc, Option.bind_some, hk]
      · rintro ⟨d, hd, hl⟩
        rw [hc] at hd
        cases hd
        exact ⟨c', put_cell_self .., by rw [hk]; exact hl⟩
    · constructor
      · simp only [Heap.get, put_cell_ne _ _ _ _ hp]
      · rintro ⟨d, hd, hl⟩
        exact ⟨d, by rw [put_cell_ne _ _ _ _ hp]; exact hd, hl⟩

theorem idle_set (h : Heap V) (l : Loc) (v : Option ℕ) (x : ℕ) : Idle (h.set l v) x ↔ Idle h x := by
  rcases set_cell h l v x with ⟨h1, h2⟩ | ⟨c, c', h1, h2, h3, _⟩
  · simp [Idle, h1, h2]
  · constructor
    · rintro ⟨d, hd, h0⟩
      rw [h2] at hd
      cases hd
      exact ⟨c, h1, by omega⟩
    · rintro ⟨d, hd, h0⟩
      rw [h1] at hd
      cases hd
      exact ⟨c', h2, by omega⟩

theorem edge_set_some (h : Heap V) (l : Loc) (y a b : ℕ) (he : Edge (h.set l (some y)) a b) :
    Edge h a b ∨ ∃ i, l = .kid a i ∧ b = y := by
  cases l with
  | root i => exact Or.inl he
  | kid p i =>
    simp only [Heap.set] at he
    cases hp : h.cell p with
    | none =>
      rw [hp] at he
      exact Or.inl he
    | some c =>
      rw [hp] at he
      obtain ⟨k, hk, hb⟩ := he
      simp only at hk
      by_cases hap : a = p
      · subst hap
        rw [put_cell_self] at hk
        cases hk
        simp only at hb
        rcases List.mem_or_eq_of_mem_set hb with h1 | h1
        · exact Or.inl ⟨c, hp, h1⟩
        · cases h1
          exact Or.inr ⟨i, rfl, rfl⟩
      · rw [put_cell_ne _ _ _ _ hap] at hk
        exact Or.inl ⟨k, hk, hb⟩

/-- Attaching to an empty slot. -/
theorem attach_empty (l : Loc) (y : ℕ) (h : Heap V) (hi : Inv h []) (hv : Valid h l) (hg : h.get l = none) (hy : h.cell y ≠ none) :
    ∃ h', ((incr y h).map fun h => h.set l (some y)) = some h' ∧ Inv h' [] ∧
      (∀ a b, Edge h' a b → Edge h a b ∨ ∃ i, l = .kid a i ∧ b = y) ∧
      (∀ x, Idle h' x ↔ Idle h x ∧ x ≠ y) := by
  obtain ⟨c, hc⟩ := Option.ne_none_iff_exists'.mp hy
  obtain ⟨h1, h2⟩ := incr_spec h [] hi y c hc
  obtain ⟨h3, h4⟩ := get_put_kids h y c { c with count := c.count + 1 } hc rfl l
  refine ⟨_, by rw [h1]; rfl, ?_, fun a b he => ?_, fun x => ?_⟩
  · refine inv_set _ _ h2 l (h4 hv) (some y) [] fun z => ?_
    rw [h3, hg]
    simp [List.count_cons]
  · rcases edge_set_some _ _ _ _ _ he with h5 | h5
    · left
      obtain ⟨k, hk, hb⟩ := h5
      by_cases hay : a = y
      · subst hay
        rw [put_cell_self] at hk
        cases hk
        exact ⟨c, hc, hb⟩
      · rw [put_cell_ne _ _ _ _ hay] at hk
        exact ⟨k, hk, hb⟩
    · exact Or.inr h5
  · rw [idle_set]
    constructor
    · rintro ⟨d, hd, h0⟩
      by_cases hxy : x = y
      · subst hxy
        rw [put_cell_self] at hd
        cases hd
        simp at h0
      · rw [put_cell_ne _ _ _ _ hxy] at hd
        exact ⟨⟨d, hd, h0⟩, hxy⟩
    · rintro ⟨⟨d, hd, h0⟩, hxy⟩
      exact ⟨d, by rw [put_cell_ne _ _ _ _ hxy]; exact hd, h0⟩

theorem destroy_spec (y : ℕ) (h : Heap V) (hi : Inv h []) (hy : Idle h y) :
    ∃ h', destroy y h = some h' ∧ Inv h' [] ∧ h'.roots = h.roots ∧ h'.next = h.next ∧ h'.cell y = none ∧
      (∀ x, h'.cell x = none ∨ Same (h.cell x) (h'.cell x)) ∧ (∀ x, Idle h' x ↔ Idle h x ∧ x ≠ y) := by
  obtain ⟨c, hc, h0⟩ := hy
  have hx := lt_next h _ hi y (by simp [hc])
  have hcount := hi.count y c hc
  have hcell : ∀ x, x ≠ y → (h.put y none).cell x = h.cell x := fun x hxy => put_cell_ne _ _ _ _ hxy
  have hi' : Inv (h.put y none) c.kids := by
    refine ⟨fun x hx => ?_, fun x d hd => ?_, fun x hx' => ?_⟩
    · by_cases hxy : x = y
      · rw [hxy, put_cell_self]
      · rw [hcell x hxy]
        exact hi.fresh x hx
    · have hxy : x ≠ y := by
        rintro rfl
        rw [put_cell_self] at hd
        cases hd
      rw [hcell x hxy] at hd
      have h1 := hi.count x d hd
      have h2 := refs_put_none h y hx c hc x
      simp only [List.count_nil] at h1
      omega
    · have h2 := refs_put_none h y hx c hc x
      simp only [List.count_nil] at hcount
      have hxy : x ≠ y := by
        rintro rfl
        omega
      rw [hcell x hxy]
      refine hi.live x ?_
      simp only [List.count_nil]
      omega
  have hsz := size_put h y hx none
  have hs1 : h.slots y = c.kids.length := by
    unfold Heap.slots
    rw [hc]
  have hs2 : (h.put y none).slots y = 0 := by
    unfold Heap.slots
    rw [put_cell_self]
  obtain ⟨h', h1, h2, h3, h4, h5, h6, h7, _, _⟩ := release_spec h.size c.kids (h.put y none) hi' (by omega)
  have hsame : ∀ x, h'.cell x = none ∨ Same (h.cell x) (h'.cell x) := by
    intro x
    rcases h5 x with h9 | h9
    · exact Or.inl h9
    · by_cases hxy : x = y
      · obtain ⟨_, _, h10, _⟩ := h9
        rw [hxy, put_cell_self] at h10
        cases h10
      · rw [hcell x hxy] at h9
        exact Or.inr h9
  refine ⟨h', by simp only [destroy, hc, h0]; simpa using h1, h2, h3, h4, ?_, hsame, fun x => ⟨fun hx => ?_, ?_⟩⟩
  · rcases h5 y with h9 | ⟨_, _, h10, _⟩
    · exact h9
    · rw [put_cell_self] at h10
      cases h10
  · obtain ⟨d, hd, hd0⟩ := h7 x hx
    have hxy : x ≠ y := by
      rintro rfl
      rw [put_cell_self] at hd
      cases hd
    rw [hcell x hxy] at hd
    exact ⟨⟨d, hd, hd0⟩, hxy⟩
  · rintro ⟨⟨d, hd, hd0⟩, hxy⟩
    have h9 : (h.put y none).cell x = some d := by rw [hcell x hxy]; exact hd
    exact ⟨d, by rw [h6 x ⟨d, h9, hd0⟩]; exact h9, hd0⟩

theorem incrAll_spec (kids : List (Option ℕ)) (h : Heap V) (pend) (hi : Inv h pend) (hk : ∀ x, some x ∈ kids → h.cell x ≠ none) :
    ∃ h', incrAll kids h = some h' ∧ Inv h' (kids ++ pend) ∧ h'.next = h.next ∧ h'.roots = h.roots ∧
      (∀ x, h.cell x = none ∧ h'.cell x = none ∨ Same (h.cell x) (h'.cell x)) ∧
      (∀ x, Idle h' x ↔ Idle h x ∧ some x ∉ kids) := by
  induction kids generalizing h pend with
  | nil =>
    refine ⟨h, rfl, hi, rfl, rfl, fun x => ?_, fun x => by simp⟩
    cases hx : h.cell x with
    | none => exact Or.inl ⟨rfl, rfl⟩
    | some c => exact Or.inr ⟨c, c, rfl, rfl, rfl, rfl, rfl⟩
  | cons a r ih =>
    cases a with
    | none =>
      obtain ⟨h', h1, h2, h3, h4, h5, h6⟩ := ih h pend hi fun x hx => hk x (List.mem_cons_of_mem _ hx)
      refine ⟨h', h1, ⟨h2.fresh, fun x c hc => ?_, fun x hx => h2.live x ?_⟩, h3, h4, h5, fun x => by rw [h6 x]; simp⟩
      · have := h2.count x c hc
        rw [List.cons_append, List.count_cons_of_ne (by simp)]
        exact this
      · rw [List.cons_append, List.count_cons_of_ne (by simp)] at hx
        exact hx
    | some y =>
      obtain ⟨c, hc⟩ := Option.ne_none_iff_exists'.mp (hk y (List.mem_cons_self ..))
      obtain ⟨e1, e2⟩ := incr_spec h pend hi y c hc
      have hlive : ∀ x, h.cell x ≠ none → (h.put y (some { c with count := c.count + 1 })).cell x ≠ none := by
        intro x hx
        by_cases hxy : x = y
        · rw [hxy, put_cell_self]
          simp
        · rw [put_cell_ne _ _ _ _ hxy]
          exact hx
      obtain ⟨h', h1, h2, h3, h4, h5, h6⟩ := ih _ _ e2 fun x hx => hlive x (hk x (List.mem_cons_of_mem _ hx))
      have hperm : ∀ x, (some y :: r ++ pend).count (some x) = (r ++ (some y :: pend)).count (some x) := by
        intro x
        simp only [List.cons_append, List.count_cons, List.count_append]
        omega
      refine ⟨h', by simp only [incrAll, e1, Option.bind_some]; exact h1, ⟨h2.fresh, fun x c hc => ?_, fun x hx => h2.live x ?_⟩, h3, h4, fun x => ?_, fun x => ?_⟩
      · rw [hperm]
        exact h2.count x c hc
      · rw [hperm] at hx
        exact hx
      · by_cases hxy : x = y
        · subst hxy
          right
          rcases h5 x with ⟨h7, _⟩ | ⟨d, d', h7, h8, h9, h10, h11⟩
          · rw [put_cell_self] at h7
            cases h7
          · rw [put_cell_self] at h7
            cases h7
            exact ⟨c, d', hc, h8, h9, h10, h11⟩
        · have := h5 x
          rw [put_cell_ne _ _ _ _ hxy] at this
          exact this
      · rw [h6 x]
        constructor
        · rintro ⟨⟨d, hd, h0⟩, hr⟩
          by_cases hxy : x = y
          · subst hxy
            rw [put_cell_self] at hd
            cases hd
            simp at h0
          · rw [put_cell_ne _ _ _ _ hxy] at hd
            exact ⟨⟨d, hd, h0⟩, by simp [hr, hxy]⟩
        · rintro ⟨⟨d, hd, h0⟩, hr⟩
          rw [List.mem_cons, not_or] at hr
          have hxy : x ≠ y := by
            rintro rfl
            exact hr.1 rfl
          exact ⟨⟨d, by rw [put_cell_ne _ _ _ _ hxy]; exact hd, h0⟩, hr.2⟩

theorem create_spec (v : V) (kids : List (Option ℕ)) (h : Heap V) (hi : Inv h []) (ha : Acyclic h)
    (hk : ∀ x, some x ∈ kids → h.cell x ≠ none) :
    ∃ h', create v kids h = some h' ∧ Inv h' [] ∧ Acyclic h' ∧ h'.roots = h.roots ∧ h'.next = h.next + 1 ∧
      h'.cell h.next = some ⟨0, v, kids, false⟩ ∧
      (∀ x, h.cell x ≠ none → Same (h.cell x) (h'.cell x)) ∧
      (∀ x, Idle h' x ↔ (Idle h x ∧ some x ∉ kids) ∨ x = h.next) := by
  obtain ⟨g, h1, h2, h3, h4, h5, h6⟩ := incrAll_spec kids h [] hi hk
  rw [List.append_nil] at h2
  have hnew : g.cell g.next = none := h2.fresh _ le_rfl
  set h' : Heap V := { g.put g.next (some ⟨0, v, kids, false⟩) with next := g.next + 1 } with hh'
  have hcself : h'.cell g.next = some ⟨0, v, kids, false⟩ := put_cell_self ..
  have hcne : ∀ x, x ≠ g.next → h'.cell x = g.cell x := fun x hx => put_cell_ne g g.next x (some ⟨0, v, kids, false⟩) hx
  have hrefs : ∀ x, refs h' x = refs g x + kids.count (some x) := by
    intro x
    unfold refs
    have e1 : h'.roots = g.roots := rfl
    have e2 : h'.next = g.next + 1 := rfl
    rw [e1, e2, Finset.sum_range_succ]
    have e3 : ∑ p ∈ Finset.range g.next, kidRefs h' p x = ∑ p ∈ Finset.range g.next, kidRefs g p x :=
      Finset.sum_congr rfl fun p hp => by
        unfold kidRefs
        rw [hcne p (Finset.mem_range.mp hp).ne]
    have e4 : kidRefs h' g.next x = kids.count (some x) := by
      unfold kidRefs
      rw [hcself]
    rw [e3, e4]
    omega
  have hlive0 : refs g g.next + kids.count (some g.next) = 0 := by
    by_contra hcon
    exact h2.live g.next (by omega) hnew
  have hInv : Inv h' [] := by
    refine ⟨fun x hx => ?_, fun x c hc => ?_, fun x hx => ?_⟩
    · have hx' : g.next + 1 ≤ x := hx
      rw [hcne x (by omega)]
      exact h2.fresh x (by omega)
    · rw [hrefs]
      simp only [List.count_nil]
      by_cases hxn : x = g.next
      · subst hxn
        rw [hcself] at hc
        cases hc
        simp only [Bool.false_eq_true, if_false]
        omega
      · rw [hcne x hxn] at hc
        have := h2.count x c hc
        omega
    · rw [hrefs] at hx
      simp only [List.count_nil] at hx
      by_cases hxn : x = g.next
      · rw [hxn, hcself]
        simp
      · rw [hcne x hxn]
        exact h2.live x (by omega)
  refine ⟨h', by rw [create, h1]; rfl, hInv, ?_, h4, by rw [← h3], by rw [← h3]; exact hcself, fun x hx => ?_, fun x => ?_⟩
  · -- nothing points at the new object
    have hto : ∀ a b, Edge h' a b → b ≠ g.next := by
      rintro a b ⟨k, hkk, hb⟩ rfl
      have h7 : 0 < refs h' g.next := by
        have h8 : 0 < kidRefs h' a g.next := by
          unfold kidRefs
          rw [hkk]
          exact List.count_pos_iff.mpr hb
        have h9 : kidRefs h' a g.next ≤ ∑ i ∈ Finset.range h'.next, kidRefs h' i g.next :=
          Finset.single_le_sum (f := fun i => kidRefs h' i g.next) (fun _ _ => Nat.zero_le _)
            (Finset.mem_range.mpr (lt_next h' _ hInv a (by simp [hkk])))
        unfold refs
        omega
      rw [hrefs] at h7
      omega
    have hold : ∀ a b, a ≠ g.next → Edge h' a b → Edge h a b := by
      rintro a b hane ⟨k, hkk, hb⟩
      rw [hcne a hane] at hkk
      rcases h5 a with ⟨_, h8⟩ | ⟨c, c', h8, h9, _, h10, _⟩
      · rw [h8] at hkk
        cases hkk
      · rw [h9] at hkk
        cases hkk
        exact ⟨c, h8, by rw [← h10]; exact hb⟩
    have key : ∀ a b, Relation.TransGen (Edge h') a b → a ≠ g.next → b ≠ g.next ∧ Relation.TransGen (Edge h) a b := by
      intro a b hab hane
      induction hab with
      | single he => exact ⟨hto _ _ he, .single (hold _ _ hane he)⟩
      | tail _ he ih => exact ⟨hto _ _ he, ih.2.tail (hold _ _ ih.1 he)⟩
    intro x hx
    have hxne : x ≠ g.next := by
      rcases Relation.TransGen.tail'_iff.mp hx with ⟨b, _, he⟩
      exact hto _ _ he
    exact ha x (key x x hx hxne).2
  · have hxn : x ≠ g.next := by
      rintro rfl
      rw [h3] at hx
      exact hx (hi.fresh _ le_rfl)
    rw [hcne x hxn]
    rcases h5 x with ⟨h7, _⟩ | h7
    · exact absurd h7 hx
    · exact h7
  · by_cases hxn : x = g.next
    · constructor
      · intro _
        exact Or.inr (by rw [hxn, h3])
      · intro _
        exact ⟨_, by rw [hxn]; exact hcself, rfl⟩
    · have : Idle h' x ↔ Idle g x := by
        unfold Idle
        rw [hcne x hxn]
      rw [this, h6 x, h3] at *
      simp [hxn]

/-- Who is waiting to be attached after an operation: specification. -/
def idleAfter (h : Heap V) : Op V → ℕ → Prop
  | .create _ kids, x => (Idle h x ∧ some x ∉ kids) ∨ x = h.next
  | .attach _ (some y), x => Idle h x ∧ x ≠ y
  | .delete y, x => Idle h x ∧ x ≠ y
  | _, x => Idle h x

theorem detached (l : Loc) (h h' : Heap V) (hi : Inv h []) (ha : Acyclic h) (hv : Valid h l) (hd : detach l h = some h') :
    Valid h' l ∧ h'.get l = none ∧ (∀ a b, Edge h' a b → Edge h a b) ∧ ∀ x, Idle h' x ↔ Idle h x := by
  obtain ⟨h'', h1, h2, h3, h4, h5, h6, h7, _⟩ := detach_spec l h hi hv
  rw [hd] at h1
  cases h1
  have hvalid : Valid h' l := by
    cases l with
    | root i => exact valid_root_mono h h' i (by rw [h4, set_roots_length]) hv
    | kid p i => exact detach_parent_survives p i h h' hi ha hv hd
  refine ⟨hvalid, ?_, fun a b he => edge_set_none h l a b (edge_same _ _ h5 a b he), fun x => ⟨fun hx => (idle_set h l none x).mp (h6 x hx), fun hx => ?_⟩⟩
  · cases l with
    | root i =>
      have hl : i < h.roots.length := hv
      simp only [Heap.get, h4, Heap.set]
      rw [List.getElem?_set_self hl]
      rfl
    | kid p i =>
      obtain ⟨c, hc, hl⟩ := hv
      obtain ⟨c', hc', hl'⟩ := hvalid
      rcases h5 p with h9 | ⟨d, d', h9, h10, _, h11, _⟩
      · rw [h9] at hc'
        cases hc'
      · have h12 : (h.set (.kid p i) none).cell p = some { c with kids := c.kids.set i none } := by
          simp only [Heap.set, hc]
          exact put_cell_self ..
        rw [h12] at h9
        cases h9
        simp only [Heap.get, h10, Option.bind_some, h11]
        rw [List.getElem?_set_self hl]
        rfl
  · have hx' := (idle_set h l none x).mpr hx
    obtain ⟨c, hc, h0⟩ := hx'
    exact ⟨c, by rw [h7 x ⟨c, hc, h0⟩]; exact hc, h0⟩

theorem get_live (h : Heap V) (hi : Inv h []) (l : Loc) (hv : Valid h l) (x : ℕ) (hg : h.get l = some x) : h.cell x ≠ none ∧ ¬ Idle h x := by
  have hpos : 0 < refs h x := by
    have := refs_set h [] hi l hv none x
    rw [hg] at this
    simp at this
    omega
  refine ⟨hi.live x (by simp only [List.count_nil]; omega), ?_⟩
  rintro ⟨c, hc, h0⟩
  have := hi.count x c hc
  simp only [List.count_nil] at this
  omega

/-- One operation: if the caller does his part, nothing undefined happens, all counts are right again, and
only what was made and not attached or deleted waits. -/
theorem step_ok (same : V → V → Bool) (o : Op V) (h : Heap V) (hi : Inv h []) (ha : Acyclic h) (hl : Legal h o) :
    ∃ h', step same o h = some h' ∧ Inv h' [] ∧ Acyclic h' ∧ ∀ x, Idle h' x ↔ idleAfter h o x := by
  cases o with
  | create v kids =>
    obtain ⟨h', h1, h2, h3, _, _, _, _, h4⟩ := create_spec v kids h hi ha hl
    exact ⟨h', h1, h2, h3, h4⟩
  | newSlot =>
    have hr : ∀ x, refs { h with roots := h.roots ++ [none] } x = refs h x := by
      intro x
      unfold refs
      simp only [List.count_append]
      have : ([none] : List (Option ℕ)).count (some x) = 0 := by simp [List.count_cons]
      rw [this]
      rfl
    refine ⟨_, rfl, ⟨hi.fresh, fun x c hc => ?_, fun x hx => ?_⟩, ha, fun x => Iff.rfl⟩
    · rw [hr]
      exact hi.count x c hc
    · rw [hr] at hx
      exact hi.live x hx
  | detach l =>
    obtain ⟨h', h1, h2, _⟩ := detach_spec l h hi hl
    obtain ⟨_, _, h5, h6⟩ := detached l h h' hi ha hl h1
    exact ⟨h', h1, h2, acyclic_mono h h' h5 ha, h6⟩
  | delete y =>
    obtain ⟨h', h1, h2, _, _, _, h3, h4⟩ := destroy_spec y h hi hl
    exact ⟨h', h1, h2, acyclic_mono h h' (edge_same h h' h3) ha, h4⟩
  | setVal y v =>
    obtain ⟨c, hc⟩ := Option.ne_none_iff_exists'.mp hl
    have hyn := lt_next h _ hi y hl
    have hrefs := fun z => refs_put_kids h y hyn c { c with val := v } hc rfl z
    refine ⟨h.put y (some { c with val := v }), by simp only [step, hc], ⟨fun x hx => ?_, fun x d hd => ?_, fun x hx => ?_⟩, ?_, fun x => ?_⟩
    · have hxy : x ≠ y := by
        rintro rfl
        have : h.next ≤ x := hx
        omega
      rw [put_cell_ne _ _ _ _ hxy]
      exact hi.fresh x hx
    · rw [hrefs]
      by_cases hxy : x = y
      · subst hxy
        rw [put_cell_self] at hd
        cases hd
        exact hi.count x c hc
      · rw [put_cell_ne _ _ _ _ hxy] at hd
        exact hi.count x d hd
    · rw [hrefs] at hx
      by_cases hxy : x = y
      · rw [hxy, put_cell_self]
        simp
      · rw [put_cell_ne _ _ _ _ hxy]
        exact hi.live x hx
    · refine acyclic_mono h _ ?_ ha
      rintro a b ⟨k, hk, hb⟩
      by_cases hay : a = y
      · subst hay
        rw [put_cell_self] at hk
        cases hk
        exact ⟨c, hc, hb⟩
      · rw [put_cell_ne _ _ _ _ hay] at hk
        exact ⟨k, hk, hb⟩
    · simp only [idleAfter, Idle]
      by_cases hxy : x = y
      · subst hxy
        rw [put_cell_self, hc]
        simp
      · rw [put_cell_ne _ _ _ _ hxy]
  | attach l c =>
    obtain ⟨hv, hc⟩ := hl
    simp only [step, attach]
    by_cases hcg : c = h.get l
    · rw [if_pos hcg]
      refine ⟨h, rfl, hi, ha, fun x => ?_⟩
      cases c with
      | none => exact Iff.rfl
      | some y =>
        simp only [idleAfter]
        refine ⟨fun hx => ⟨hx, ?_⟩, fun hx => hx.1⟩
        rintro rfl
        exact (get_live h hi l hv x hcg.symm).2 hx
    · rw [if_neg hcg]
      cases c with
      | none =>
        obtain ⟨h', h1, h2, _⟩ := detach_spec l h hi hv
        obtain ⟨_, _, h5, h6⟩ := detached l h h' hi ha hv h1
        exact ⟨h', h1, h2, acyclic_mono h h' h5 ha, h6⟩
      | some y =>
        obtain ⟨hy, hsafe, hnc⟩ := hc y rfl
        simp only
        have fin : ∀ (g g' : Heap V), Inv g [] → (∀ a b, Edge g a b → Edge h a b) →
            (∀ a b, Edge g' a b → Edge g a b ∨ ∃ i, l = .kid a i ∧ b = y) → Acyclic g' := by
          intro g g' hg h1 h2
          cases hll : l with
          | root i => exact acyclic_mono h g' (fun a b he => by
              rcases h2 a b he with h3 | ⟨j, h3, _⟩
              · exact h1 a b h3
              · rw [hll] at h3
                cases h3) ha
          | kid p i => exact acyclic_add h g' p y (fun a b he => by
              rcases h2 a b he with h3 | ⟨j, h3, h4⟩
              · exact Or.inl (h1 a b h3)
              · rw [hll] at h3
                cases h3
                exact Or.inr ⟨rfl, h4⟩) (hnc p i hll) ha
        cases hg : h.get l with
        | none =>
          simp only
          obtain ⟨h', h1, h2, h3, h4⟩ := attach_empty l y h hi hv hg hy
          exact ⟨h', h1, h2, fin h h' hi (fun _ _ he => he) h3, h4⟩
        | some x =>
          obtain ⟨cy, hcy⟩ := Option.ne_none_iff_exists'.mp hy
          obtain ⟨cx, hcx⟩ := Option.ne_none_iff_exists'.mp (get_live h hi l hv x hg).1
          simp only [hcy, hcx]
          by_cases hs : same cy.val cx.val = false
          · rw [if_pos hs]
            obtain ⟨g, h1, h2, _⟩ := detach_spec l h hi hv
            obtain ⟨e1, e2, e3, e4⟩ := detached l h g hi ha hv h1
            have hyl : g.cell y ≠ none := by
              rcases hsafe with h5 | ⟨r, h5, h6⟩
              · rw [hg] at h5
                cases h5
              · exact detach_keeps l h g hi hv h1 r y h5 h6
            obtain ⟨h', h5, h6, h7, h8⟩ := attach_empty l y g h2 e1 e2 hyl
            refine ⟨h', by rw [h1]; exact h5, h6, fin g h' h2 e3 h7, fun z => ?_⟩
            rw [h8 z, e4 z]
            rfl
          · rw [if_neg hs]
            by_cases h0 : cy.count = 0
            · rw [if_pos h0]
              obtain ⟨h', h1, h2, _, _, _, h3, h4⟩ := destroy_spec y h hi ⟨cy, hcy, h0⟩
              exact ⟨h', h1, h2, acyclic_mono h h' (edge_same h h' h3) ha, h4⟩
            · rw [if_neg h0]
              refine ⟨h, rfl, hi, ha, fun z => ⟨fun hz => ⟨hz, ?_⟩, fun hz => hz.1⟩⟩
              rintro rfl
              obtain ⟨d, hd, hd0⟩ := hz
              rw [hcy] at hd
              cases hd
              exact h0 hd0

/-- Every sequence of operations: nothing undefined, and all counts right at the end. -/
theorem run_ok (same : V → V → Bool) (ops : List (Op V)) (h : Heap V) (hi : Inv h []) (ha : Acyclic h) (hl : LegalRun same ops h) :
    ∃ h', run same ops h = some h' ∧ Inv h' [] ∧ Acyclic h' := by
  induction ops generalizing h with
  | nil => exact ⟨h, rfl, hi, ha⟩
  | cons o r ih =>
    obtain ⟨h1, h2, h3, h4, _⟩ := step_ok same o h hi ha hl.1
    obtain ⟨h5, h6, h7, h8⟩ := ih h1 h3 h4 (hl.2 h1 h2)
    exact ⟨h5, by simp only [run, h2, Option.bind_some]; exact h6, h7, h8⟩

/-- Nothing is leaked: every object is held from outside, directly or through others. -/
theorem no_leak (h : Heap V) (hi : Inv h []) (ha : Acyclic h) (x : ℕ) (hx : h.cell x ≠ none) :
    ∃ r, Anchor h r ∧ Reach h r x := by
  -- go against the references; there is no circle, and there are finitely many objects
  let P : ℕ → ℕ → Prop := fun a b => a < h.next ∧ b < h.next ∧ Relation.TransGen (Edge h) a b
  have hirr : ∀ a, ¬ P a a := fun a h => ha a h.2.2
  have hwf : WellFounded P := by
    have hfin : Finite {a // a < h.next} := (Set.finite_lt_nat h.next).to_subtype
    let Q : {a // a < h.next} → {a // a < h.next} → Prop := fun a b => Relation.TransGen (Edge h) a.1 b.1
    have : IsTrans _ Q := ⟨fun a b c h1 h2 => Relation.TransGen.trans h1 h2⟩
    have : Std.Irrefl Q := ⟨fun a h => ha a.1 h⟩
    have hq : WellFounded Q := Finite.wellFounded_of_trans_of_irrefl Q
    refine ⟨fun a => ?_⟩
    by_cases han : a < h.next
    · have : ∀ b : {a // a < h.next}, Acc P b.1 := by
        intro b
        induction b using hq.induction with
        | _ b ih => exact ⟨_, fun y hy => ih ⟨y, hy.1⟩ hy.2.2⟩
      exact this ⟨a, han⟩
    · exact ⟨_, fun y hy => absurd hy.2.1 han⟩
  induction x using hwf.induction with
  | _ x ih =>
    obtain ⟨c, hc⟩ := Option.ne_none_iff_exists'.mp hx
    have hxn := lt_next h _ hi x hx
    by_cases h1 : c.count = 0 ∨ c.static = true
    · exact ⟨x, Or.inl ⟨c, hc, h1⟩, .refl⟩
    · rw [not_or] at h1
      have hcount := hi.count x c hc
      simp only [List.count_nil] at hcount
      rw [if_neg h1.2] at hcount
      by_cases h2 : 0 < h.roots.count (some x)
      · exact ⟨x, Or.inr (List.count_pos_iff.mp h2), .refl⟩
      · have h3 : 0 < ∑ p ∈ Finset.range h.next, kidRefs h p x := by
          unfold refs at hcount
          omega
        obtain ⟨p, hp, h4⟩ := Finset.exists_ne_zero_of_sum_ne_zero h3.ne'
        have he : Edge h p x := by
          unfold kidRefs at h4
          cases hpc : h.cell p with
          | none =>
            rw [hpc] at h4
            exact absurd rfl h4
          | some k =>
            rw [hpc] at h4
            exact ⟨k, hpc, List.count_pos_iff.mp (Nat.pos_of_ne_zero h4)⟩
        obtain ⟨r, h5, h6⟩ := ih p ⟨Finset.mem_range.mp hp, hxn, .single he⟩ (by
          obtain ⟨k, hk, _⟩ := he
          simp [hk])
        exact ⟨r, h5, h6.tail he⟩

end Gnucap.Ref
