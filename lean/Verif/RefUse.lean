import Verif.RefProps
import Mathlib.Tactic.SplitIfs

/-!
# Users of shared objects: the DC sweep, expansion, attributes
-/
set_option linter.unusedSimpArgs false
namespace Gnucap.Ref

variable {V : Type}

/-! ## one operation, explicitly -/

theorem put_put (h : Heap V) (x : ℕ) (a b : Option (Cell V)) : (h.put x a).put x b = h.put x b := by
  simp [Heap.put]

theorem attach_root_empty (same : V → V → Bool) (i y : ℕ) (h : Heap V) (c : Cell V) (hg : h.get (.root i) = none) (hc : h.cell y = some c) :
    attach same (.root i) (some y) h = some ((h.put y (some { c with count := c.count + 1 })).set (.root i) (some y)) := by
  rw [attach, hg, if_neg (by simp)]
  simp only [incr, hc, Option.map_some]

theorem detach_root_many (i x : ℕ) (h : Heap V) (c : Cell V) (hg : h.get (.root i) = some x) (hc : h.cell x = some c)
    (h2 : 2 ≤ c.count) : detach (.root i) h = some ((h.set (.root i) none).put x (some { c with count := c.count - 1 })) := by
  have hc' : (h.set (.root i) none).cell x = some c := hc
  rw [detach, hg]
  simp only [Nat.add_comm 1, release, hc']
  rw [if_neg (by omega), if_neg (by omega)]

theorem detach_root_one (i x : ℕ) (h : Heap V) (c : Cell V) (hg : h.get (.root i) = some x) (hc : h.cell x = some c)
    (h1 : c.count = 1) (hk : c.kids = []) : detach (.root i) h = some ((h.set (.root i) none).put x none) := by
  have hc' : (h.set (.root i) none).cell x = some c := hc
  rw [detach, hg]
  simp only [Nat.add_comm 1, release, hc']
  rw [if_neg (by omega), if_pos h1, hk, List.nil_append]
  simp only [release]

theorem destroy_plain (y : ℕ) (h : Heap V) (c : Cell V) (hc : h.cell y = some c) (h0 : c.count = 0) (hk : c.kids = []) :
    destroy y h = some (h.put y none) := by
  rw [destroy, hc]
  simp only [h0, hk]
  cases h.size <;> simp [release]

theorem create_plain (v : V) (h : Heap V) :
    create v [] h = some { h.put h.next (some ⟨0, v, [], false⟩) with next := h.next + 1 } := rfl

/-! ## the DC sweep of an element

`CARDSTASH::operator=` and `restore` (`include/u_cardst.h:40-44`, `58-66`), `ELEMENT::set_value`
(`lib/e_elemnt.cc:72-80`), taking control (`apps/s_dc.cc:345-351`), each sweep step
(`apps/s_dc.cc:475-478` with `COMPONENT::precalc_last`, `lib/e_compon.cc:586-603`: the shared object is
cloned and the clone attached), `finish` (`apps/s_dc.cc:218-227`).  `e` is the slot of the element, `s` the
slot of the stash. -/

/-- stash, make the control object, attach it -/
def takeControl (w : V) (e s : ℕ) (h : Heap V) : List (Op V) :=
  [.detach (.root s), .attach (.root s) (h.get (.root e)), .create w [], .attach (.root e) (some h.next)]

/-- one sweep step: the clone gets the address `n` -/
def sweepStep (w : V) (e n : ℕ) : List (Op V) := [.create w [], .attach (.root e) (some n)]

/-- restore: `set_value(v, c)` detaches and attaches, if `c` is something else -/
def restore (e s : ℕ) (h : Heap V) : List (Op V) :=
  if h.get (.root s) = h.get (.root e) then [] else [.detach (.root e), .attach (.root e) (h.get (.root s))]

theorem run_append (same : V → V → Bool) (a b : List (Op V)) (h : Heap V) : run same (a ++ b) h = (run same a h).bind (run same b) := by
  induction a generalizing h with
  | nil => rfl
  | cons o r ih =>
    simp only [List.cons_append, run]
    cases step same o h with
    | none => rfl
    | some g => exact ih g

/-- A sweep step with the object in control leaves everything as it was. -/
theorem sweepStep_id (same : V → V → Bool) (w : V) (hw : same w w = true) (e n : ℕ) (h : Heap V) (c : Cell V) (hf : ∀ x, h.next ≤ x → h.cell x = none)
    (hg : h.get (.root e) = some n) (hc : h.cell n = some c) (hcw : c.val = w) :
    run same (sweepStep w e h.next) h = some { h with next := h.next + 1 } := by
  have hn : n ≠ h.next := by
    rintro rfl
    rw [hf _ le_rfl] at hc
    cases hc
  simp only [sweepStep, run, step, create_plain, Option.bind_some]
  set h1 : Heap V := { h.put h.next (some ⟨0, w, [], false⟩) with next := h.next + 1 } with hh1
  have hg1 : h1.get (.root e) = some n := hg
  have hc1 : h1.cell n = some c := (put_cell_ne h h.next n _ hn).trans hc
  have hcn : h1.cell h.next = some ⟨0, w, [], false⟩ := put_cell_self h h.next _
  have ha : attach same (.root e) (some h.next) h1 = some (h1.put h.next none) := by
    rw [attach, hg1, if_neg (by simpa using hn.symm)]
    simp only [hcn, hc1, hcw, hw, Bool.true_eq_false, if_false, if_true]
    exact destroy_plain h.next h1 _ hcn rfl rfl
  rw [ha]
  simp only [Option.bind_some, Option.some.injEq]
  have : h1.put h.next none = { h.put h.next none with next := h.next + 1 } := by
    simp only [hh1, Heap.put, Function.update_idem]
  rw [this]
  have h2 : (h.put h.next none).cell = h.cell := by
    funext y
    by_cases hy : y = h.next
    · rw [hy, put_cell_self, hf _ le_rfl]
    · rw [put_cell_ne _ _ _ _ hy]
  cases h
  simp only [Heap.put] at h2 ⊢
  rw [h2]

/-- All steps of a sweep. -/
def sweepSteps (same : V → V → Bool) (w : V) (e : ℕ) : ℕ → Heap V → Option (Heap V)
  | 0, h => some h
  | k + 1, h => (run same (sweepStep w e h.next) h).bind (sweepSteps same w e k)

theorem sweepSteps_id (same : V → V → Bool) (w : V) (hw : same w w = true) (e n k : ℕ) (h : Heap V) (c : Cell V) (hf : ∀ x, h.next ≤ x → h.cell x = none)
    (hg : h.get (.root e) = some n) (hc : h.cell n = some c) (hcw : c.val = w) :
    sweepSteps same w e k h = some { h with next := h.next + k } := by
  induction k generalizing h with
  | zero => rfl
  | succ k ih =>
    simp only [sweepSteps]
    rw [sweepStep_id same w hw e n h c hf hg hc hcw, Option.bind_some,
      ih { h with next := h.next + 1 } (fun x hx => hf x (Nat.le_of_succ_le hx)) hg hc]
    simp only [Option.some.injEq]
    have : h.next + 1 + k = h.next + (k + 1) := by omega
    rw [this]

/-- The second sweep of one element: the control object made for it is thrown away at once, because it is
the same as the one in control; the first sweep step then writes to a released object. -/
theorem sweep_twice_wrong (same : V → V → Bool) (w : V) (hw : same w w = true) (e n : ℕ) (h : Heap V) (c : Cell V) (hf : ∀ x, h.next ≤ x → h.cell x = none)
    (hg : h.get (.root e) = some n) (hc : h.cell n = some c) (hcw : c.val = w) (v : V) :
    run same [.create w [], .attach (.root e) (some h.next), .setVal h.next v] h = none := by
  have h1 := run_append same (sweepStep w e h.next) [.setVal h.next v] h
  rw [sweepStep_id same w hw e n h c hf hg hc hcw] at h1
  have h2 : sweepStep w e h.next ++ [Op.setVal h.next v] = [.create w [], .attach (.root e) (some h.next), .setVal h.next v] := rfl
  rw [h2] at h1
  rw [h1, Option.bind_some]
  have h3 : h.cell h.next = none := hf _ le_rfl
  simp only [run, step, h3, Option.bind_none]

theorem get_set_self (h : Heap V) (i : ℕ) (v : Option ℕ) (hi : i < h.roots.length) : (h.set (.root i) v).get (.root i) = v := by
  simp only [Heap.get, Heap.set]
  rw [List.getElem?_set_self hi]
  rfl

theorem get_set_ne (h : Heap V) (i j : ℕ) (v : Option ℕ) (hij : i ≠ j) : (h.set (.root i) v).get (.root j) = h.get (.root j) := by
  simp only [Heap.get, Heap.set]
  rw [List.getElem?_set_ne hij]

theorem ext_heap (a b : Heap V) (h1 : ∀ x, a.cell x = b.cell x) (h2 : a.next = b.next) (h3 : a.roots = b.roots) : a = b := by
  cases a
  cases b
  simp only at h1 h2 h3
  subst h2 h3
  congr
  funext x
  exact h1 x

/-- A whole sweep of an element, over any number of steps: afterwards every object, every count and every
slot is as before, and the control object is gone. -/
theorem sweep_roundtrip (same : V → V → Bool) (w : V) (hw : same w w = true) (e s k : ℕ) (hes : e ≠ s) (h : Heap V) (hi : Inv h [])
    (he : e < h.roots.length) (hs : s < h.roots.length) (hse : h.get (.root s) = none)
    (hother : ∀ x c, h.get (.root e) = some x → h.cell x = some c → same w c.val = false) :
    ((((run same (takeControl w e s h) h).bind (sweepSteps same w e k)).bind fun g => run same (restore e s g) g).bind
      (detach (.root s))) = some { h with next := h.next + 1 + k } := by
  have hrs : h.roots.set s none = h.roots := by
    have h1 : h.get (.root s) = (h.roots[s]?).join := rfl
    rw [hse, List.getElem?_eq_getElem hs, Option.join_some] at h1
    rw [h1]
    exact List.set_getElem_self hs
  set n := h.next with hn
  have hnn : h.cell n = none := hi.fresh _ le_rfl
  -- put the states together
  have fin : ∀ (g0 g g' : Heap V), run same (takeControl w e s h) h = some g0 → (∀ x, g0.next ≤ x → g0.cell x = none) →
      (∃ c, g0.cell n = some c ∧ c.val = w) → g0.get (.root e) = some n → g = { g0 with next := g0.next + k } →
      run same (restore e s g) g = some g' → detach (.root s) g' = some { h with next := n + 1 + k } →
      ((((run same (takeControl w e s h) h).bind (sweepSteps same w e k)).bind fun g => run same (restore e s g) g).bind
      (detach (.root s))) = some { h with next := n + 1 + k } := by
    rintro g0 g g' e1 e2 ⟨c, e3, e4⟩ e5 e6 e7 e8
    rw [e1, Option.bind_some, sweepSteps_id same w hw e n k g0 c e2 e5 e3 e4, Option.bind_some, ← e6, e7, Option.bind_some, e8]
  cases hg : h.get (.root e) with
  | none =>
    have hre : h.roots.set e none = h.roots := by
      have h1 : h.get (.root e) = (h.roots[e]?).join := rfl
      rw [hg, List.getElem?_eq_getElem he, Option.join_some] at h1
      rw [h1]
      exact List.set_getElem_self he
    set ctrl : Cell V := ⟨1, w, [], false⟩ with hctrl
    set g0 : Heap V := ⟨Function.update h.cell n (some ctrl), n + 1, h.roots.set e (some n)⟩ with hg0
    have hg0n : g0.cell n = some ctrl := Function.update_self ..
    have hg0e : g0.get (.root e) = some n := get_set_self h e (some n) he
    have hg0s : g0.get (.root s) = none := (get_set_ne h e s (some n) hes).trans hse
    refine fin g0 { g0 with next := g0.next + k } { h with next := n + 1 + k } ?_ ?_ ⟨ctrl, hg0n, rfl⟩ hg0e rfl ?_ ?_
    · simp only [takeControl, run, step, hg]
      have e1 : detach (.root s) h = some h := by rw [detach, hse]
      have e2 : attach same (.root s) none h = some h := by rw [attach, hse, if_pos rfl]
      rw [e1, Option.bind_some, e2, Option.bind_some, create_plain, Option.bind_some]
      rw [attach_root_empty same e n { h.put n (some ⟨0, w, [], false⟩) with next := n + 1 } ⟨0, w, [], false⟩ hg
        (put_cell_self h n (some ⟨0, w, [], false⟩))]
      simp only [Option.bind_some, Option.some.injEq]
      simp only [Heap.put, Heap.set, Function.update_idem]
      rfl
    · intro x hx
      have hx' : n + 1 ≤ x := hx
      have : g0.cell x = h.cell x := Function.update_of_ne (by omega) ..
      rw [this]
      exact hi.fresh x (by omega)
    · rw [restore]
      have e1 : ({ g0 with next := g0.next + k } : Heap V).get (.root s) = none := hg0s
      have e2 : ({ g0 with next := g0.next + k } : Heap V).get (.root e) = some n := hg0e
      rw [e1, e2, if_neg (by simp)]
      simp only [run, step]
      rw [detach_root_one e n _ ctrl e2 hg0n rfl rfl, Option.bind_some]
      have e3 : attach same (.root e) none ((({ g0 with next := g0.next + k } : Heap V).set (.root e) none).put n none) =
          some ((({ g0 with next := g0.next + k } : Heap V).set (.root e) none).put n none) := by
        rw [attach, if_pos]
        exact (get_set_self ({ g0 with next := g0.next + k } : Heap V) e none (by
          simp only [hg0, List.length_set]
          exact he)).symm
      rw [e3, Option.bind_some, Option.some.injEq]
      refine ext_heap _ _ (fun y => ?_) ?_ ?_
      · by_cases hy : y = n
        · rw [hy, put_cell_self]
          exact hnn.symm
        · rw [put_cell_ne _ _ _ _ hy]
          exact Function.update_of_ne hy ..
      · simp only [Heap.put, Heap.set, hg0]
      · simp only [Heap.put, Heap.set, hg0, List.set_set]
        exact hre
    · have : ({ h with next := n + 1 + k } : Heap V).get (.root s) = none := hse
      rw [detach, this]
  | some x =>
    obtain ⟨c, hc⟩ := Option.ne_none_iff_exists'.mp (get_live h hi (.root e) he x hg).1
    have hcpos : 1 ≤ c.count := by
      by_contra h0
      exact (get_live h hi (.root e) he x hg).2 ⟨c, hc, by omega⟩
    have hxn : x ≠ n := by
      rintro rfl
      rw [hnn] at hc
      cases hc
    have hre : (h.roots.set e (some x)) = h.roots := by
      have h1 : h.get (.root e) = (h.roots[e]?).join := rfl
      rw [hg, List.getElem?_eq_getElem he, Option.join_some] at h1
      rw [h1]
      exact List.set_getElem_self he
    set ctrl : Cell V := ⟨1, w, [], false⟩ with hctrl
    set g0 : Heap V := ⟨Function.update h.cell n (some ctrl), n + 1, (h.roots.set s (some x)).set e (some n)⟩ with hg0
    have hg0n : g0.cell n = some ctrl := Function.update_self ..
    have hg0x : g0.cell x = some c := (Function.update_of_ne hxn ..).trans hc
    have hlen : e < (h.roots.set s (some x)).length := by
      rw [List.length_set]
      exact he
    have hg0e : g0.get (.root e) = some n := get_set_self (h.set (.root s) (some x)) e (some n) hlen
    have hg0s : g0.get (.root s) = some x :=
      (get_set_ne (h.set (.root s) (some x)) e s (some n) hes).trans (get_set_self h s (some x) hs)
    refine fin g0 { g0 with next := g0.next + k }
      ⟨Function.update h.cell x (some { c with count := c.count + 1 }), n + 1 + k, h.roots.set s (some x)⟩ ?_ ?_ ⟨ctrl, hg0n, rfl⟩ hg0e rfl ?_ ?_
    · simp only [takeControl, run, step, hg]
      have e1 : detach (.root s) h = some h := by rw [detach, hse]
      rw [e1, Option.bind_some, attach_root_empty same s x h c hse hc, Option.bind_some, create_plain, Option.bind_some]
      set h1 := (h.put x (some { c with count := c.count + 1 })).set (.root s) (some x) with hh1
      have h1n : h1.next = n := rfl
      set h2 : Heap V := { h1.put h1.next (some ⟨0, w, [], false⟩) with next := h1.next + 1 } with hh2
      have h2n : h2.cell n = some ⟨0, w, [], false⟩ := put_cell_self h1 n (some ⟨0, w, [], false⟩)
      have h2x : h2.cell x = some { c with count := c.count + 1 } :=
        (put_cell_ne h1 n x _ hxn).trans (put_cell_self h x (some { c with count := c.count + 1 }))
      have h2e : h2.get (.root e) = some x := (get_set_ne h s e (some x) hes.symm).trans hg
      have h2d : detach (.root e) h2 = some ((h2.set (.root e) none).put x (some c)) := by
        rw [detach_root_many e x h2 _ h2e h2x (by simp only; omega)]
        rfl
      have h3n : ((h2.set (.root e) none).put x (some c)).cell n = some ⟨0, w, [], false⟩ :=
        (put_cell_ne _ _ _ _ hxn.symm).trans h2n
      have h2a : attach same (.root e) (some n) h2 = some
          ((((h2.set (.root e) none).put x (some c)).put n (some ctrl)).set (.root e) (some n)) := by
        rw [attach, h2e, if_neg (by simpa using hxn.symm)]
        simp only [h2n, h2x]
        rw [if_pos (hother x c hg hc), h2d, Option.bind_some, incr, h3n]
        rfl
      rw [h2a, Option.bind_some, Option.some.injEq]
      refine ext_heap _ _ (fun y => ?_) rfl ?_
      · by_cases hyn : y = n
        · rw [hyn, hg0n]
          exact put_cell_self _ n (some ctrl)
        · have e4 : g0.cell y = h.cell y := Function.update_of_ne hyn ..
          rw [e4]
          refine (put_cell_ne _ n y _ hyn).trans ?_
          by_cases hyx : y = x
          · rw [hyx, hc]
            exact put_cell_self _ x (some c)
          · refine (put_cell_ne _ x y _ hyx).trans ?_
            exact (put_cell_ne h1 n y _ hyn).trans (put_cell_ne h x y _ hyx)
      · simp only [Heap.put, Heap.set, hg0, hh2, hh1, List.set_set]
    · intro y hy
      have hy' : n + 1 ≤ y := hy
      have : g0.cell y = h.cell y := Function.update_of_ne (by omega) ..
      rw [this]
      exact hi.fresh y (by omega)
    · rw [restore]
      set g : Heap V := { g0 with next := g0.next + k } with hgdef
      have e1 : g.get (.root s) = some x := hg0s
      have e2 : g.get (.root e) = some n := hg0e
      have hlen2 : e < g.roots.length := by
        simp only [hgdef, hg0, List.length_set]
        exact he
      rw [e1, e2, if_neg (by simpa using hxn)]
      simp only [run, step]
      rw [detach_root_one e n _ ctrl e2 hg0n rfl rfl, Option.bind_some]
      have e3 : ((g.set (.root e) none).put n none).get (.root e) = none := get_set_self g e none hlen2
      have e4 : ((g.set (.root e) none).put n none).cell x = some c := (put_cell_ne _ _ _ _ hxn).trans hg0x
      rw [attach_root_empty same e x _ c e3 e4, Option.bind_some, Option.some.injEq]
      refine ext_heap _ _ (fun y => ?_) ?_ ?_
      · by_cases hyx : y = x
        · rw [hyx]
          have u : Function.update h.cell x (some { c with count := c.count + 1 }) x = some { c with count := c.count + 1 } :=
            Function.update_self ..
          exact (put_cell_self _ x _).trans u.symm
        · have u : Function.update h.cell x (some { c with count := c.count + 1 }) y = h.cell y := Function.update_of_ne hyx ..
          refine (put_cell_ne _ x y _ hyx).trans (Eq.trans ?_ u.symm)
          by_cases hyn : y = n
          · rw [hyn, put_cell_self]
            exact hnn.symm
          · exact (put_cell_ne _ n y _ hyn).trans (Function.update_of_ne hyn ..)
      · simp only [Heap.put, Heap.set, hgdef, hg0]
      · simp only [Heap.put, Heap.set, hgdef, hg0, List.set_set]
        rw [List.set_comm _ _ hes.symm, hre]
    · set g' : Heap V := ⟨Function.update h.cell x (some { c with count := c.count + 1 }), n + 1 + k, h.roots.set s (some x)⟩ with hg'
      have e1 : g'.get (.root s) = some x := get_set_self h s (some x) hs
      have e2 : g'.cell x = some { c with count := c.count + 1 } := Function.update_self ..
      rw [detach_root_many s x g' _ e1 e2 (by simp only; omega), Option.some.injEq]
      refine ext_heap _ _ (fun y => ?_) rfl ?_
      · by_cases hyx : y = x
        · rw [hyx]
          exact (put_cell_self _ x _).trans hc.symm
        · exact (put_cell_ne _ x y _ hyx).trans (Function.update_of_ne hyx ..)
      · simp only [Heap.put, Heap.set, hg', List.set_set]
        exact hrs

/-! ## expansion -/

/-- The operations that mention an object. -/
def Mentions (x : ℕ) : Op V → Prop
  | .create _ kids => some x ∈ kids
  | .attach _ c => c = some x
  | .delete y => y = x
  | _ => False

/-- An object that was made and that nobody mentions any more stays for ever. -/
theorem idle_forever (same : V → V → Bool) (ops : List (Op V)) (x : ℕ) (hm : ∀ o ∈ ops, ¬ Mentions x o) (h : Heap V) (hi : Inv h [])
    (ha : Acyclic h) (hl : LegalRun same ops h) (hx : Idle h x) : ∃ h', run same ops h = some h' ∧ Idle h' x := by
  induction ops generalizing h with
  | nil => exact ⟨h, rfl, hx⟩
  | cons o r ih =>
    obtain ⟨h1, h2, h3, h4, h5⟩ := step_ok same o h hi ha hl.1
    have ho := hm o (List.mem_cons_self ..)
    have hx1 : Idle h1 x := by
      rw [h5 x]
      cases o with
      | create v kids => exact Or.inl ⟨hx, ho⟩
      | newSlot => exact hx
      | attach l c =>
        cases c with
        | none => exact hx
        | some y => exact ⟨hx, fun hxy => ho (by rw [hxy]; rfl)⟩
      | detach l => exact hx
      | delete y => exact ⟨hx, fun hxy => ho hxy.symm⟩
      | setVal y v => exact hx
    obtain ⟨h6, h7, h8⟩ := ih (fun o ho => hm o (List.mem_cons_of_mem _ ho)) h1 h3 h4 (hl.2 h1 h2) hx1
    exact ⟨h6, by simp only [run, h2, Option.bind_some]; exact h7, h8⟩

/-- `COMPONENT::expand` (`lib/e_compon.cc:540-555`) for an element whose shared object refers to a model
(`EVAL_BM_MODEL::expand`, `apps/bm_model.cc:105-138`, `deflate` `46`): the object is cloned, the clone gets
a new function object, and the element gets the function object. -/
def expandModel (f : V) (v : V) (e n : ℕ) : List (Op V) :=
  [.create v [none], .create f [], .attach (.kid n 0) (some (n + 1)), .attach (.root e) (some (n + 1))]

/-- what the heap looks like: slot 0 is the element, object 0 its shared object -/
def beforeExpand (v : V) : Heap V := ⟨fun x => if x = 0 then some ⟨1, v, [none], false⟩ else none, 1, [some 0]⟩

/-- The clone is left behind: it has count 0, so it is attached nowhere, and `expand` does not keep its
address; it will hold on to the function object for ever (`idle_forever`). -/
theorem expand_leaks (f v : V) : ∃ h', run (fun _ _ => false) (expandModel f v 0 1) (beforeExpand v) = some h' ∧
    Idle h' 1 ∧ h'.roots = [some 2] ∧ (∃ c, h'.cell 2 = some c ∧ c.count = 2) := by
  refine ⟨_, rfl, ⟨⟨0, v, [some 2], false⟩, rfl, rfl⟩, rfl, ⟨⟨2, f, [], false⟩, rfl, rfl⟩⟩

/-- The condition in `Legal` is needed: an element that is given a part of its own shared object (as
`COMPONENT::deflate_common`, `lib/e_compon.cc:526-538`, would do it) uses it after it is released. -/
theorem own_part_undefined (v f : V) : run (fun _ _ => false) [.create f [], .attach (.kid 0 0) (some 1), .attach (.root 0) (some 1)]
    (beforeExpand v) = none := rfl

/-! ## attributes -/

/-- `add_to`: all counts right. -/
theorem addTo_ok (v : V) (i : ℕ) (h : Heap V) (hi : Inv h []) (ha : Acyclic h) (hv : i < h.roots.length) :
    ∃ h', addTo v (.root i) h = some h' ∧ Inv h' [] ∧ Acyclic h' ∧ h'.get (.root i) = some h.next ∧
      ∃ c, h'.cell h.next = some c ∧ c.val = v ∧ c.kids = [h.get (.root i)] := by
  -- the same as making the new one on top of the old one and then moving the slot
  have key : ∀ (o : Option ℕ), h.get (.root i) = o →
      ∃ h', ((create v [o] h).bind fun g => (detach (.root i) g).bind fun g =>
        (incr h.next g).map fun g => g.set (.root i) (some h.next)) = some h' ∧ Inv h' [] ∧ Acyclic h' ∧
        h'.get (.root i) = some h.next ∧ ∃ c, h'.cell h.next = some c ∧ c.val = v ∧ c.kids = [o] := by
    intro o ho
    obtain ⟨g, h1, h2, h3, h4, _, h5, _, h6⟩ := create_spec v [o] h hi ha (by
      intro x hx
      rw [List.mem_singleton] at hx
      exact (get_live h hi (.root i) hv x (by rw [ho, hx])).1)
    have hv' : Valid g (.root i) := by
      have : i < g.roots.length := by rw [h4]; exact hv
      exact this
    obtain ⟨k, k1, k2, k3, k4, k5, k6, k7, _⟩ := detach_spec (.root i) g h2 hv'
    obtain ⟨d1, d2, d3, d4⟩ := detached (.root i) g k h2 h3 hv' k1
    have hidle : Idle k h.next := (d4 _).mpr ((h6 _).mpr (Or.inr rfl))
    have hkn : k.cell h.next = some ⟨0, v, [o], false⟩ := by
      have e1 : (g.set (.root i) none).cell h.next = some ⟨0, v, [o], false⟩ := h5
      rw [k7 h.next ⟨_, e1, rfl⟩]
      exact e1
    obtain ⟨m, m1, m2, m3, _⟩ := attach_empty (.root i) h.next k k2 d1 d2 (by simp [hkn])
    refine ⟨m, ?_, m2, ?_, ?_, ?_⟩
    · rw [h1, Option.bind_some, k1, Option.bind_some]
      exact m1
    · refine acyclic_mono k m (fun a b he => ?_) (acyclic_mono g k d3 h3)
      rcases m3 a b he with h7 | ⟨j, h7, _⟩
      · exact h7
      · cases h7
    · simp only [incr, hkn, Option.map_some, Option.some.injEq] at m1
      rw [← m1]
      exact get_set_self _ i _ d1
    · simp only [incr, hkn, Option.map_some, Option.some.injEq] at m1
      rw [← m1]
      exact ⟨⟨1, v, [o], false⟩, put_cell_self k h.next (some ⟨1, v, [o], false⟩), rfl, rfl⟩
  cases hg : h.get (.root i) with
  | none =>
    obtain ⟨h', h1, h2, h3, h4, h5⟩ := key none hg
    refine ⟨h', ?_, h2, h3, h4, h5⟩
    rw [← h1, addTo, hg]
    have e1 : create v [none] h = some { h.put h.next (some ⟨0, v, [none], false⟩) with next := h.next + 1 } := rfl
    have e2 : detach (.root i) ({ h.put h.next (some ⟨0, v, [none], false⟩) with next := h.next + 1 } : Heap V) =
        some { h.put h.next (some ⟨0, v, [none], false⟩) with next := h.next + 1 } := by
      have : ({ h.put h.next (some ⟨0, v, [none], false⟩) with next := h.next + 1 } : Heap V).get (.root i) = none := hg
      rw [detach, this]
    have e3 : ({ h.put h.next (some ⟨0, v, [none], false⟩) with next := h.next + 1 } : Heap V).cell h.next = some ⟨0, v, [none], false⟩ :=
      put_cell_self h h.next _
    rw [e1, Option.bind_some, e2, Option.bind_some, incr, e3]
    rfl
  | some x =>
    obtain ⟨h', h1, h2, h3, h4, h5⟩ := key (some x) hg
    refine ⟨h', ?_, h2, h3, h4, h5⟩
    obtain ⟨c, hc⟩ := Option.ne_none_iff_exists'.mp (get_live h hi (.root i) hv x hg).1
    have hcpos : c.count ≠ 0 := fun h0 => (get_live h hi (.root i) hv x hg).2 ⟨c, hc, h0⟩
    have hxn : x ≠ h.next := by
      intro hx
      rw [hx, hi.fresh _ le_rfl] at hc
      cases hc
    rw [← h1, addTo, hg]
    simp only [hc]
    rw [if_neg hcpos]
    -- the second one
    have e1 : create v [some x] h = some { (h.put x (some { c with count := c.count + 1 })).put h.next
        (some ⟨0, v, [some x], false⟩) with next := h.next + 1 } := by
      simp only [create, incrAll, incr, hc, Option.bind_some, Option.map_some]
      rfl
    set g : Heap V := { (h.put x (some { c with count := c.count + 1 })).put h.next
        (some ⟨0, v, [some x], false⟩) with next := h.next + 1 } with hgdef
    have g1 : g.get (.root i) = some x := hg
    have g2 : g.cell x = some { c with count := c.count + 1 } :=
      (put_cell_ne (h.put x (some { c with count := c.count + 1 })) h.next x _ hxn).trans (put_cell_self h x _)
    have g3 : g.cell h.next = some ⟨0, v, [some x], false⟩ := put_cell_self (h.put x (some { c with count := c.count + 1 })) h.next _
    have g4 := detach_root_many i x g _ g1 g2 (by simp only; omega)
    have g5 : ((g.set (.root i) none).put x (some { c with count := c.count + 1 - 1 })).cell h.next = some ⟨0, v, [some x], false⟩ :=
      (put_cell_ne _ _ _ _ hxn.symm).trans g3
    simp only [e1, Option.bind_some, g4, incr, g5, Option.map_some]
    -- the first one
    have f1 : (h.put x (some { c with count := c.count - 1 })).cell x = some { c with count := c.count - 1 } := put_cell_self ..
    simp only [create, incrAll, incr, f1, Option.bind_some, Option.map_some, Option.some.injEq]
    refine ext_heap _ _ (fun y => ?_) rfl ?_
    · by_cases hyn : y = h.next
      · rw [hyn]
        refine (put_cell_self _ h.next _).trans (Eq.symm ?_)
        exact put_cell_self _ h.next _
      · refine (put_cell_ne _ h.next y _ hyn).trans ?_
        refine (put_cell_ne _ h.next y _ hyn).trans ?_
        refine Eq.trans ?_ (put_cell_ne _ h.next y _ hyn).symm
        by_cases hyx : y = x
        · rw [hyx]
          refine (put_cell_self _ x _).trans ?_
          refine Eq.trans ?_ (put_cell_self _ x _).symm
          simp only [Option.some.injEq, Cell.mk.injEq, and_true]
          omega
        · refine (put_cell_ne _ x y _ hyx).trans ?_
          refine (put_cell_ne _ x y _ hyx).trans ?_
          refine Eq.trans ?_ (put_cell_ne _ x y _ hyx).symm
          exact ((put_cell_ne (h.put x (some { c with count := c.count + 1 })) h.next y _ hyn).trans (put_cell_ne h x y _ hyx)).symm
    · simp only [Heap.put, Heap.set, hgdef, List.set_set]

/-- Assignment of attributes, where the target is empty or the only user of what it had: all counts
right, and the target has what the source had. -/
theorem assignAttr_partial (i j : ℕ) (hij : i ≠ j) (h : Heap V) (hi : Inv h []) (ha : Acyclic h) (hv : i < h.roots.length)
    (hw : j < h.roots.length) (hsole : ∀ x c, h.get (.root i) = some x → h.cell x = some c → c.count = 1) :
    ∃ h', assignAttr (.root i) (.root j) h = some h' ∧ Inv h' [] ∧ Acyclic h' ∧ h'.get (.root i) = h.get (.root j) ∧
      h'.get (.root j) = h.get (.root j) := by
  -- to an empty target
  have empty : ∀ g : Heap V, Inv g [] → Acyclic g → i < g.roots.length → j < g.roots.length → g.get (.root i) = none → ∀ y,
      g.get (.root j) = some y → ∃ g', ((incr y g).map fun g => g.set (.root i) (some y)) = some g' ∧ Inv g' [] ∧ Acyclic g' ∧
        g'.get (.root i) = some y ∧ g'.get (.root j) = some y := by
    intro g hg hga hgi hgj hgn y hy
    have hyl := (get_live g hg (.root j) hgj y hy).1
    obtain ⟨c, hc⟩ := Option.ne_none_iff_exists'.mp hyl
    obtain ⟨g', h1, h2, h3, _⟩ := attach_empty (.root i) y g hg hgi hgn hyl
    refine ⟨g', h1, h2, acyclic_mono g g' (fun a b he => ?_) hga, ?_, ?_⟩
    · rcases h3 a b he with h4 | ⟨k, h4, _⟩
      · exact h4
      · cases h4
    · simp only [incr, hc, Option.map_some, Option.some.injEq] at h1
      rw [← h1]
      exact get_set_self _ i _ hgi
    · simp only [incr, hc, Option.map_some, Option.some.injEq] at h1
      rw [← h1]
      exact (get_set_ne _ i j _ hij).trans hy
  rw [assignAttr]
  cases hg : h.get (.root i) with
  | none =>
    simp only
    cases hy : h.get (.root j) with
    | none =>
      have : h.set (.root i) none = h := by
        refine ext_heap _ _ (fun _ => rfl) rfl ?_
        have h1 : h.get (.root i) = (h.roots[i]?).join := rfl
        rw [hg, List.getElem?_eq_getElem hv, Option.join_some] at h1
        simp only [Heap.set]
        rw [h1]
        exact List.set_getElem_self hv
      exact ⟨h, by rw [this], hi, ha, hg, hy⟩
    | some y => exact empty h hi ha hv hw hg y hy
  | some x =>
    obtain ⟨c, hc⟩ := Option.ne_none_iff_exists'.mp (get_live h hi (.root i) hv x hg).1
    simp only [hc]
    rw [if_pos (hsole x c hg hc)]
    obtain ⟨g, h1, h2, _, h3, _⟩ := detach_spec (.root i) h hi hv
    obtain ⟨d1, d2, d3, _⟩ := detached (.root i) h g hi ha hv h1
    have hgj : g.get (.root j) = h.get (.root j) := by
      have : g.get (.root j) = (h.set (.root i) none).get (.root j) := by
        simp only [Heap.get, h3]
      rw [this, get_set_ne _ _ _ _ hij]
    have hga := acyclic_mono h g d3 ha
    have hgl : j < g.roots.length := by
      rw [h3, set_roots_length]
      exact hw
    rw [h1, Option.bind_some, hgj]
    cases hy : h.get (.root j) with
    | none => exact ⟨g, rfl, h2, hga, d2, hgj.trans hy⟩
    | some y => exact empty g h2 hga d1 hgl d2 y (hgj.trans hy)

/-- The full statement is false: if the target shares what it had, the assertion fails, -/
theorem assign_shared_wrong (v : V) : assignAttr (.root 0) (.root 1)
    (⟨fun x => if x = 0 then some ⟨2, v, [none], false⟩ else none, 1, [some 0, none, some 0]⟩ : Heap V) = none := rfl

/-- and an assignment to itself loses the attributes. -/
theorem assign_self_wrong (v : V) : ∃ h', assignAttr (.root 0) (.root 0)
    (⟨fun x => if x = 0 then some ⟨1, v, [none], false⟩ else none, 1, [some 0]⟩ : Heap V) = some h' ∧ h'.roots = [none] :=
  ⟨_, rfl, rfl⟩

/-! ## examples -/

/-- a heap with a static object, and one that is shared by two slots and contains a third -/
def exHeap : Heap ℕ := ⟨fun x =>
  if x = 0 then some ⟨ccStatic + 1, 0, [], true⟩ else
  if x = 1 then some ⟨2, 5, [some 2, some 0], false⟩ else
  if x = 2 then some ⟨1, 6, [], false⟩ else none, 3, [some 1, some 1, none]⟩

theorem exHeap_inv : Inv exHeap [] := by
  have hr : ∀ x, 3 ≤ x → refs exHeap x = 0 := by
    intro x hx
    have h1 : (exHeap.roots).count (some x) = 0 := by
      rw [List.count_eq_zero]
      intro hm
      simp only [exHeap, List.mem_cons, Option.some.injEq, List.not_mem_nil, or_false] at hm
      rcases hm with h | h | h
      · omega
      · omega
      · cases h
    unfold refs
    rw [h1, show exHeap.next = 3 from rfl, Finset.sum_range_succ, Finset.sum_range_succ, Finset.sum_range_succ, Finset.sum_range_zero]
    have k0 : kidRefs exHeap 0 x = 0 := rfl
    have k2 : kidRefs exHeap 2 x = 0 := rfl
    have k1 : kidRefs exHeap 1 x = 0 := by
      have : kidRefs exHeap 1 x = ([some 2, some 0] : List (Option ℕ)).count (some x) := rfl
      rw [this, List.count_eq_zero]
      intro hm
      simp only [List.mem_cons, Option.some.injEq, List.not_mem_nil, or_false] at hm
      omega
    rw [k0, k1, k2]
    rfl
  have hfr : ∀ x, 3 ≤ x → exHeap.cell x = none := by
    intro x hx
    simp only [exHeap]
    rw [if_neg (by omega), if_neg (by omega), if_neg (by omega)]
  refine ⟨hfr, fun x c hc => ?_, fun x hx => ?_⟩
  · by_cases h3 : 3 ≤ x
    · rw [hfr x h3] at hc
      cases hc
    · have h4 : x = 0 ∨ x = 1 ∨ x = 2 := by omega
      rcases h4 with rfl | rfl | rfl
      · have : c = ⟨ccStatic + 1, 0, [], true⟩ := (Option.some.inj hc).symm
        subst this
        decide +kernel
      · have : c = ⟨2, 5, [some 2, some 0], false⟩ := (Option.some.inj hc).symm
        subst this
        decide +kernel
      · have : c = ⟨1, 6, [], false⟩ := (Option.some.inj hc).symm
        subst this
        decide +kernel
  · by_cases h3 : 3 ≤ x
    · rw [hr x h3] at hx
      simp at hx
    · have h4 : x = 0 ∨ x = 1 ∨ x = 2 := by omega
      rcases h4 with rfl | rfl | rfl <;> exact Option.some_ne_none _

theorem exHeap_acyclic : Acyclic exHeap := by
  have he : ∀ a b, Edge exHeap a b → a = 1 ∧ b ≠ 1 := by
    rintro a b ⟨k, hk, hb⟩
    by_cases h0 : a = 0
    · subst h0
      have : k = ⟨ccStatic + 1, 0, [], true⟩ := (Option.some.inj hk).symm
      subst this
      simp at hb
    by_cases h1 : a = 1
    · subst h1
      have : k = ⟨2, 5, [some 2, some 0], false⟩ := (Option.some.inj hk).symm
      subst this
      simp at hb
      exact ⟨rfl, by omega⟩
    by_cases h2 : a = 2
    · subst h2
      have : k = ⟨1, 6, [], false⟩ := (Option.some.inj hk).symm
      subst this
      simp at hb
    · have : exHeap.cell a = none := by
        simp only [exHeap]
        rw [if_neg h0, if_neg h1, if_neg h2]
      rw [this] at hk
      cases hk
  intro x hx
  rcases Relation.TransGen.head'_iff.mp hx with ⟨b, h1, _⟩
  rcases Relation.TransGen.tail'_iff.mp hx with ⟨b', _, h2⟩
  exact (he b' x h2).2 (he x b h1).1

/-- the sweep of the element whose slot is 0, with its stash in slot 2, over three points -/
example : ((((run (fun a b => a == b) (takeControl 9 0 2 exHeap) exHeap).bind (sweepSteps (fun a b => a == b) 9 0 3)).bind
    fun g => run (fun a b => a == b) (restore 0 2 g) g).bind (detach (.root 2))) = some { exHeap with next := 7 } :=
  sweep_roundtrip (fun a b => a == b) 9 rfl 0 2 3 (by decide) exHeap exHeap_inv (by decide) (by decide) rfl (by
    intro x c h1 h2
    cases h1
    cases h2
    rfl)

/-- a run that is legal: clone object 1, attach the clone to slot 2, clear the slots 0 and 1 (which
releases object 1), clear slot 2 (which releases the clone and object 2) -/
example : ∃ h', run (fun _ _ => false) [.create 5 [some 2, some 0], .attach (.root 2) (some 3), .detach (.root 0), .detach (.root 1),
    .detach (.root 2)] exHeap = some h' ∧ h'.cell 1 = none ∧ h'.cell 2 = none ∧ h'.cell 3 = none ∧
    (h'.cell 0).map (·.count) = some ccStatic := ⟨_, rfl, rfl, rfl, rfl, rfl⟩

end Gnucap.Ref
