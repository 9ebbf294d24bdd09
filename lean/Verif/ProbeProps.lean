import Verif.ProbeModel
import Mathlib.Data.List.Count
import Mathlib.Data.List.Perm.Basic

/-!
# Probes never point to a destroyed object (C49, second part)
-/
set_option linter.unusedSectionVars false
set_option linter.unusedSimpArgs false
namespace Gnucap.Probe
variable {W : Type}

/-! ## Specification -/

/-- how many probes of a list are set on `b` -/
def cnt (b : ℕ) (ps : List (Probe W)) : ℕ := ps.countP fun p => p.brh == some b

/-- Every object that exists counts the probes set on it; no probe is set on one that does not. -/
def Fits (n : Counts) (ps : List (Probe W)) : Prop :=
  ∀ b, n b = some (cnt b ps) ∨ (n b = none ∧ cnt b ps = 0)

/-- the invariant of a state -/
def Good (s : State W) : Prop := Fits s.n s.lists.flatten

/-- same objects -/
def SameObj (n n' : Counts) : Prop := ∀ b, n' b = none ↔ n b = none

/-- What the program must not do of its own: make an object where one is, set a probe on an object that is
not there, destroy an object that is not there. -/
def Legal (s : State W) : Op W → Prop
  | .born b => s.n b = none
  | .add _ p _ => ∀ x, p.brh = some x → s.n x ≠ none
  | .gone b => s.n b ≠ none
  | _ => True

/-- every operation of the sequence is legal when its turn comes -/
def LegalRun : List (Op W) → State W → Prop
  | [], _ => True
  | o :: r, s => Legal s o ∧ ∀ s', step o s = some s' → LegalRun r s'

/-- the lists as they should be after an operation -/
def listsAfter (ls : List (List (Probe W))) : Op W → List (List (Probe W))
  | .born _ => ls
  | .add i p _ => ls.modify i (· ++ [p])
  | .remove i q => ls.modify i (·.filter fun p => !q p)
  | .clear i => ls.modify i fun _ => []
  | .gone b => ls.map (·.filter fun p => p.brh ≠ some b)

/-! ## Lemmas -/

theorem SameObj.refl (n : Counts) : SameObj n n := fun _ => Iff.rfl

theorem SameObj.trans {a b c : Counts} (h : SameObj a b) (k : SameObj b c) : SameObj a c :=
  fun x => (k x).trans (h x)

theorem cnt_perm {b : ℕ} {ps qs : List (Probe W)} (h : ps.Perm qs) : cnt b ps = cnt b qs :=
  h.countP_eq _

theorem Fits.perm {n : Counts} {ps qs : List (Probe W)} (h : Fits n ps) (p : ps.Perm qs) : Fits n qs := by
  intro b
  rw [← cnt_perm p]
  exact h b

theorem cnt_cons (b : ℕ) (p : Probe W) (ps : List (Probe W)) :
    cnt b (p :: ps) = cnt b ps + if p.brh = some b then 1 else 0 := by
  simp [cnt, List.countP_cons]

/-- the object of a probe that is there, is there -/
theorem Fits.alive {n : Counts} {p : Probe W} {ps : List (Probe W)} (h : Fits n ps) (hp : p ∈ ps) {x : ℕ}
    (hx : p.brh = some x) : n x ≠ none := by
  intro hn
  rcases h x with h | ⟨_, h⟩
  · rw [hn] at h
    cases h
  · rw [cnt, List.countP_eq_zero] at h
    exact h p hp (by simp [hx])

theorem inc_fits {n : Counts} {ps : List (Probe W)} (h : Fits n ps) (p : Probe W)
    (ha : ∀ x, p.brh = some x → n x ≠ none) :
    ∃ n', inc p.brh n = some n' ∧ Fits n' (p :: ps) ∧ SameObj n n' := by
  cases hb : p.brh with
  | none =>
    refine ⟨n, rfl, fun b => ?_, SameObj.refl n⟩
    rw [cnt_cons, hb]
    simpa using h b
  | some x =>
    obtain ⟨k, hk⟩ := Option.ne_none_iff_exists'.mp (ha x hb)
    have hc : k = cnt x ps := by
      rcases h x with h | ⟨h, _⟩
      · rw [hk] at h
        exact Option.some.inj h
      · rw [hk] at h
        cases h
    refine ⟨Function.update n x (some (k + 1)), by simp only [inc, hk], fun b => ?_, fun b => ?_⟩
    · rw [cnt_cons, hb]
      by_cases e : b = x
      · subst e
        left
        simp [hc]
      · have : ¬ (some x = some b) := fun q => e (Option.some.inj q).symm
        rw [Function.update_of_ne e, if_neg this]
        simpa using h b
    · by_cases e : b = x
      · subst e
        simp [hk]
      · rw [Function.update_of_ne e]

theorem dec_fits {n : Counts} {p : Probe W} {ps : List (Probe W)} (h : Fits n (p :: ps)) :
    ∃ n', dec p.brh n = some n' ∧ Fits n' ps ∧ SameObj n n' := by
  cases hb : p.brh with
  | none =>
    refine ⟨n, rfl, fun b => ?_, SameObj.refl n⟩
    have := h b
    rw [cnt_cons, hb] at this
    simpa using this
  | some x =>
    have hx : n x = some (cnt x ps + 1) := by
      have := h x
      rw [cnt_cons, hb] at this
      simpa using this
    refine ⟨Function.update n x (some (cnt x ps)), by simp only [dec, hx], fun b => ?_, fun b => ?_⟩
    · by_cases e : b = x
      · subst e
        left
        simp
      · have := h b
        rw [cnt_cons, hb, if_neg (fun q => e (Option.some.inj q).symm)] at this
        rw [Function.update_of_ne e]
        simpa using this
    · by_cases e : b = x
      · subst e
        simp [hx]
      · rw [Function.update_of_ne e]

theorem destroyAll_fits (l : List (Probe W)) : ∀ {n : Counts} {ps : List (Probe W)}, Fits n (l ++ ps) →
    ∃ n', destroyAll l n = some n' ∧ Fits n' ps ∧ SameObj n n' := by
  induction l with
  | nil => exact fun {n ps} h => ⟨n, rfl, h, SameObj.refl n⟩
  | cons p r ih =>
    intro n ps h
    obtain ⟨n₁, e₁, f₁, s₁⟩ := dec_fits (p := p) (ps := r ++ ps) h
    obtain ⟨n₂, e₂, f₂, s₂⟩ := ih f₁
    exact ⟨n₂, by simp only [destroyAll, e₁, e₂], f₂, s₁.trans s₂⟩

theorem copyAll_fits (l : List (Probe W)) : ∀ {n : Counts} {ps : List (Probe W)}, Fits n ps →
    (∀ p ∈ l, p ∈ ps) → ∃ n', copyAll l n = some n' ∧ Fits n' (l ++ ps) ∧ SameObj n n' := by
  induction l with
  | nil => exact fun {n ps} h _ => ⟨n, rfl, h, SameObj.refl n⟩
  | cons p r ih =>
    intro n ps h hm
    obtain ⟨n₁, e₁, f₁, s₁⟩ := inc_fits h p fun x hx => h.alive (hm p List.mem_cons_self) hx
    obtain ⟨n₂, e₂, f₂, s₂⟩ := ih f₁ fun q hq => List.mem_cons_of_mem _ (hm q (List.mem_cons_of_mem _ hq))
    exact ⟨n₂, by simp only [copyAll, e₁, e₂], f₂.perm List.perm_middle, s₁.trans s₂⟩

theorem move_fits {l : List (Probe W)} {n : Counts} {ps : List (Probe W)} (h : Fits n ps)
    (hm : ∀ p ∈ l, p ∈ ps) : ∃ n', move l n = some n' ∧ Fits n' ps ∧ SameObj n n' := by
  obtain ⟨n₁, e₁, f₁, s₁⟩ := copyAll_fits l h hm
  obtain ⟨n₂, e₂, f₂, s₂⟩ := destroyAll_fits l f₁
  exact ⟨n₂, by simp only [move, e₁, e₂], f₂, s₁.trans s₂⟩

theorem push_fits (grow : Bool) {p : Probe W} {l rest : List (Probe W)} {n : Counts}
    (h : Fits n (l ++ rest)) (ha : ∀ x, p.brh = some x → n x ≠ none) :
    ∃ n', push grow p l n = some (l ++ [p], n') ∧ Fits n' (l ++ [p] ++ rest) ∧ SameObj n n' := by
  obtain ⟨n₁, e₁, f₁, s₁⟩ := inc_fits h p ha
  obtain ⟨n₂, e₂, f₂, s₂⟩ := inc_fits f₁ p fun x hx => f₁.alive List.mem_cons_self hx
  obtain ⟨n₃, e₃, f₃, s₃⟩ : ∃ n₃, (if grow then move l n₂ else some n₂) = some n₃ ∧
      Fits n₃ (p :: p :: (l ++ rest)) ∧ SameObj n₂ n₃ := by
    cases grow
    · exact ⟨n₂, rfl, f₂, SameObj.refl _⟩
    · exact move_fits f₂ fun q hq => by simp [hq]
  obtain ⟨n₄, e₄, f₄, s₄⟩ := dec_fits f₃
  refine ⟨n₄, by simp only [push, e₁, e₂, e₃, e₄, Option.map_some], f₄.perm ?_,
    ((s₁.trans s₂).trans s₃).trans s₄⟩
  rw [List.append_assoc]
  exact List.perm_middle.symm

theorem removeLoop_fits (q : Probe W → Bool) (r : List (Probe W)) :
    ∀ (kept gap : List (Probe W)) (rest : List (Probe W)) (n : Counts),
    Fits n (kept ++ gap ++ r ++ rest) →
    ∃ gap' n', removeLoop q kept gap r n = some (kept ++ r.filter (fun p => !q p), gap', n') ∧
      Fits n' (kept ++ r.filter (fun p => !q p) ++ gap' ++ rest) ∧ SameObj n n' := by
  induction r with
  | nil =>
    intro kept gap rest n h
    exact ⟨gap, n, by simp [removeLoop], by simpa using h, SameObj.refl n⟩
  | cons p r ih =>
    intro kept gap rest n h
    by_cases hq : q p
    · obtain ⟨g, n', e, f, s⟩ := ih kept (gap ++ [p]) rest n (by simpa using h)
      refine ⟨g, n', ?_, ?_, s⟩
      · rw [removeLoop.eq_def]
        simp only [if_pos hq, e]
        simp [hq]
      · simpa [hq] using f
    · cases gap with
      | nil =>
        obtain ⟨g, n', e, f, s⟩ := ih (kept ++ [p]) [] rest n (by simpa using h)
        refine ⟨g, n', ?_, ?_, s⟩
        · rw [removeLoop.eq_def]
          simp only [if_neg hq, e]
          simp [hq]
        · simpa [hq] using f
      | cons g gs =>
        have h₀ : Fits n (g :: (kept ++ gs ++ p :: r ++ rest)) := h.perm (by simp)
        obtain ⟨n₁, e₁, f₁, s₁⟩ := dec_fits h₀
        obtain ⟨n₂, e₂, f₂, s₂⟩ := inc_fits f₁ p fun x hx => f₁.alive (by simp) hx
        obtain ⟨g', n', e, f, s⟩ := ih (kept ++ [p]) (gs ++ [p]) rest n₂ (f₂.perm (by
          have h₁ : (kept ++ [p] ++ (gs ++ [p]) ++ r ++ rest) = kept ++ p :: (gs ++ p :: r ++ rest) := by simp
          have h₂ : (kept ++ gs ++ p :: r ++ rest) = kept ++ (gs ++ p :: r ++ rest) := by simp
          rw [h₁, h₂]
          exact List.perm_middle.symm))
        refine ⟨g', n', ?_, ?_, (s₁.trans s₂).trans s⟩
        · rw [removeLoop.eq_def]
          simp only [if_neg hq, assign, e₁, e₂, Option.map_some, e]
          simp [hq]
        · simpa [hq] using f

/-- Removing leaves the others, in their order. -/
theorem removeIf_fits (q : Probe W → Bool) {l rest : List (Probe W)} {n : Counts} (h : Fits n (l ++ rest)) :
    ∃ n', removeIf q l n = some (l.filter (fun p => !q p), n') ∧
      Fits n' (l.filter (fun p => !q p) ++ rest) ∧ SameObj n n' := by
  obtain ⟨g, n₁, e₁, f₁, s₁⟩ := removeLoop_fits q l [] [] rest n (by simpa using h)
  obtain ⟨n₂, e₂, f₂, s₂⟩ := destroyAll_fits g (ps := l.filter (fun p => !q p) ++ rest)
    (f₁.perm (by
      simp only [List.nil_append, List.append_assoc]
      rw [← List.append_assoc, ← List.append_assoc]
      exact List.perm_append_comm.append_right _))
  exact ⟨n₂, by simp only [removeIf, e₁, e₂, Option.map_some, List.nil_append], f₂, s₁.trans s₂⟩

theorem purge_fits (b : ℕ) (ls : List (List (Probe W))) : ∀ (n : Counts) (rest : List (Probe W)),
    Fits n (ls.flatten ++ rest) →
    ∃ n', purge b ls n = some (ls.map (·.filter fun p => p.brh ≠ some b), n') ∧
      Fits n' ((ls.map (·.filter fun p => p.brh ≠ some b)).flatten ++ rest) ∧ SameObj n n' := by
  induction ls with
  | nil => exact fun n rest h => ⟨n, rfl, h, SameObj.refl n⟩
  | cons l r ih =>
    intro n rest h
    obtain ⟨n₁, e₁, f₁, s₁⟩ := removeIf_fits (fun p => p.brh == some b) (l := l)
      (rest := r.flatten ++ rest) (n := n) (by simpa using h)
    have hf : (l.filter fun p => !(p.brh == some b)) = l.filter fun p => p.brh ≠ some b := by
      congr 1
      funext p
      by_cases e : p.brh = some b <;> simp [e]
    rw [hf] at e₁ f₁
    obtain ⟨n₂, e₂, f₂, s₂⟩ := ih n₁ (rest ++ l.filter fun p => p.brh ≠ some b)
      (f₁.perm (by
        rw [← List.append_assoc r.flatten]
        exact List.perm_append_comm))
    refine ⟨n₂, by simp only [purge, e₁, e₂, Option.map_some, List.map_cons], f₂.perm ?_, s₁.trans s₂⟩
    rw [List.map_cons, List.flatten_cons, ← List.append_assoc, List.append_assoc (l.filter _)]
    exact List.perm_append_comm

/-! ## Theorems -/

theorem flatten_set {ls : List (List (Probe W))} {i : ℕ} {l : List (Probe W)} (h : ls[i]? = some l) :
    ∃ rest, ls.flatten.Perm (l ++ rest) ∧ ∀ l', (ls.set i l').flatten.Perm (l' ++ rest) := by
  induction ls generalizing i with
  | nil => simp at h
  | cons a r ih =>
    cases i with
    | zero =>
      have : a = l := by simpa using h
      subst this
      exact ⟨r.flatten, by simp, fun l' => by simp⟩
    | succ i =>
      obtain ⟨rest, h₁, h₂⟩ := ih (i := i) (by simpa using h)
      refine ⟨a ++ rest, ?_, fun l' => ?_⟩
      · rw [List.flatten_cons]
        exact (h₁.append_left a).trans (by
          rw [← List.append_assoc, ← List.append_assoc]
          exact List.perm_append_comm.append_right _)
      · rw [List.set_cons_succ, List.flatten_cons]
        exact ((h₂ l').append_left a).trans (by
          rw [← List.append_assoc, ← List.append_assoc]
          exact List.perm_append_comm.append_right _)

theorem modify_none {ls : List (List (Probe W))} {i : ℕ} (h : ls[i]? = none)
    (f : List (Probe W) → List (Probe W)) : ls.modify i f = ls := by
  apply List.ext_getElem?
  intro j
  rw [List.getElem?_modify]
  by_cases e : i = j
  · subst e
    simp [h]
  · simp [e]

theorem modify_some {ls : List (List (Probe W))} {i : ℕ} {l : List (Probe W)} (h : ls[i]? = some l)
    (f : List (Probe W) → List (Probe W)) : ls.modify i f = ls.set i (f l) := by
  apply List.ext_getElem?
  intro j
  rw [List.getElem?_modify, List.getElem?_set]
  by_cases e : i = j
  · subst e
    have hi : i < ls.length := by
      by_contra c
      rw [List.getElem?_eq_none (by omega)] at h
      cases h
    have := (List.getElem?_eq_some_iff.mp h).2
    simp [hi, this]
  · simp [e]

/-- **One operation.**  It does not fail; the lists are what they should be; every object still counts the
probes set on it, and no probe is set on an object that is not there. -/
theorem step_ok {s : State W} (hg : Good s) {o : Op W} (hl : Legal s o) :
    ∃ s', step o s = some s' ∧ Good s' ∧ s'.lists = listsAfter s.lists o := by
  cases o with
  | born b =>
    refine ⟨_, rfl, fun x => ?_, rfl⟩
    by_cases e : x = b
    · subst e
      left
      rcases hg x with h | ⟨_, h⟩
      · rw [show s.n x = none from hl] at h
        cases h
      · simp [h]
    · simp only [Function.update_of_ne e]
      exact hg x
  | add i p grow =>
    cases h : s.lists[i]? with
    | none => exact ⟨s, by simp only [step, h], hg, (modify_none h _).symm⟩
    | some l =>
      obtain ⟨rest, p₁, p₂⟩ := flatten_set h
      obtain ⟨n', e, f, _⟩ := push_fits grow (hg.perm p₁) hl
      exact ⟨⟨s.lists.set i (l ++ [p]), n'⟩, by simp only [step, h, e, Option.map_some],
        f.perm (p₂ _).symm, (modify_some h (· ++ [p])).symm⟩
  | remove i q =>
    cases h : s.lists[i]? with
    | none => exact ⟨s, by simp only [step, h], hg, (modify_none h _).symm⟩
    | some l =>
      obtain ⟨rest, p₁, p₂⟩ := flatten_set h
      obtain ⟨n', e, f, _⟩ := removeIf_fits q (hg.perm p₁)
      exact ⟨⟨s.lists.set i (l.filter fun p => !q p), n'⟩, by simp only [step, h, e, Option.map_some],
        f.perm (p₂ _).symm, (modify_some h _).symm⟩
  | clear i =>
    cases h : s.lists[i]? with
    | none => exact ⟨s, by simp only [step, h], hg, (modify_none h _).symm⟩
    | some l =>
      obtain ⟨rest, p₁, p₂⟩ := flatten_set h
      obtain ⟨n', e, f, _⟩ := destroyAll_fits l (hg.perm p₁)
      exact ⟨⟨s.lists.set i [], n'⟩, by simp only [step, h, e, Option.map_some],
        f.perm (p₂ []).symm, (modify_some h fun _ => []).symm⟩
  | gone b =>
    have key : ∀ {ls : List (List (Probe W))} {n : Counts}, Fits n ls.flatten → cnt b ls.flatten = 0 →
        Good (⟨ls, Function.update n b none⟩ : State W) := by
      intro ls n hf h0 x
      by_cases e : x = b
      · subst e
        right
        simpa using h0
      · simp only [Function.update_of_ne e]
        exact hf x
    cases hb : s.n b with
    | none => exact absurd hb hl
    | some k =>
      have hc : k = cnt b s.lists.flatten := by
        rcases hg b with h | ⟨h, _⟩
        · rw [hb] at h
          exact Option.some.inj h
        · rw [hb] at h
          cases h
      cases k with
      | zero =>
        refine ⟨⟨s.lists, Function.update s.n b none⟩, by simp only [step, hb], key hg hc.symm, ?_⟩
        have : ∀ l ∈ s.lists, (l.filter fun p => decide (p.brh ≠ some b)) = l := by
          intro l hl
          rw [List.filter_eq_self]
          intro p hp
          have h0 := hc.symm
          rw [cnt, List.countP_eq_zero] at h0
          have := h0 p (List.mem_flatten.mpr ⟨l, hl, hp⟩)
          simpa using this
        simp only [listsAfter]
        rw [List.map_congr_left this, List.map_id']
      | succ k =>
        obtain ⟨n', e, f, so⟩ := purge_fits b s.lists s.n [] (by rw [List.append_nil]; exact hg)
        rw [List.append_nil] at f
        have h0 : cnt b (s.lists.map (·.filter fun p => p.brh ≠ some b)).flatten = 0 := by
          rw [cnt, List.countP_eq_zero]
          intro p hp
          obtain ⟨l, hl, hp⟩ := List.mem_flatten.mp hp
          obtain ⟨l₀, _, rfl⟩ := List.mem_map.mp hl
          have := (List.mem_filter.mp hp).2
          simpa using this
        have hn : n' b = some 0 := by
          rcases f b with h | ⟨h, _⟩
          · rw [h, h0]
          · rw [so b, hb] at h
            cases h
        refine ⟨⟨_, Function.update n' b none⟩, ?_, key f h0, rfl⟩
        simp only [step, hb, e, hn, if_true]

/-- **Any sequence of operations.**  No assertion on a count fails, no destroyed object is touched, and at
the end every object counts exactly the probes set on it. -/
theorem run_ok (os : List (Op W)) : ∀ {s : State W}, Good s → LegalRun os s →
    ∃ s', run os s = some s' ∧ Good s' ∧ s'.lists = os.foldl listsAfter s.lists := by
  induction os with
  | nil => exact fun {s} hg _ => ⟨s, rfl, hg, rfl⟩
  | cons o r ih =>
    intro s hg hl
    obtain ⟨s₁, e₁, g₁, l₁⟩ := step_ok hg hl.1
    obtain ⟨s₂, e₂, g₂, l₂⟩ := ih g₁ (hl.2 s₁ e₁)
    exact ⟨s₂, by simp only [run, e₁, e₂], g₂, by rw [l₂, l₁]; rfl⟩

/-- **After an object is destroyed no probe points to it**, also not when its address is used again. -/
theorem gone_no_probe {s : State W} (hg : Good s) {b : ℕ} (hb : s.n b ≠ none) :
    ∃ s' s'', step (.gone b) s = some s' ∧ (∀ l ∈ s'.lists, ∀ p ∈ l, p.brh ≠ some b) ∧
      step (.born b) s' = some s'' ∧ s''.n b = some 0 ∧ ∀ l ∈ s''.lists, ∀ p ∈ l, p.brh ≠ some b := by
  obtain ⟨s', e, g, hl⟩ := step_ok hg (o := .gone b) hb
  have hp : ∀ l ∈ s'.lists, ∀ p ∈ l, p.brh ≠ some b := by
    intro l hl' p hp
    rw [hl] at hl'
    obtain ⟨l₀, _, rfl⟩ := List.mem_map.mp hl'
    simpa using (List.mem_filter.mp hp).2
  exact ⟨s', _, e, hp, rfl, by simp, hp⟩

/-- **Assigning a probe to itself loses it**: whatever it was set on, afterwards it is set on nothing. -/
theorem assign_self_wrong (blank : W → W) {p : Probe W} {x : ℕ} (hx : p.brh = some x) {n : Counts} {k : ℕ}
    (hn : n x = some (k + 1)) :
    ∃ n', assignSelf blank p n = some (⟨none, blank p.rest⟩, n') ∧ n' x = some k ∧
      (⟨none, blank p.rest⟩ : Probe W) ≠ p := by
  refine ⟨Function.update n x (some k), by simp only [assignSelf, dec, hx, hn], by simp, fun h => ?_⟩
  rw [← h] at hx
  cases hx

/-! ## Examples -/

/-- two lists, objects 1 and 2; two probes on 1, one on 2, one system probe -/
def exState : State String :=
  ⟨[[⟨some 1, "v"⟩, ⟨some 2, "i"⟩, ⟨some 1, "p"⟩], [⟨none, "temp"⟩]],
    fun b => if b = 1 then some 2 else if b = 2 then some 1 else none⟩

theorem exState_good : Good exState := by
  intro b
  by_cases h1 : b = 1
  · subst h1
    left
    decide
  · by_cases h2 : b = 2
    · subst h2
      left
      decide
    · right
      have a' : ¬ 1 = b := fun e => h1 e.symm
      have c' : ¬ 2 = b := fun e => h2 e.symm
      simp [exState, cnt, h1, h2, a', c', List.countP_cons]

/-- object 1 is destroyed: only the probe on 2 and the system probe are left, 2 keeps its count -/
example : (step (.gone 1) exState).map (fun s => (s.lists, s.n 1, s.n 2)) =
    some ([[⟨some 2, "i"⟩], [⟨none, "temp"⟩]], none, some 1) := by decide +kernel

example : ∃ s', run [.add 1 ⟨some 2, "v"⟩ true, .gone 1, .born 1, .remove 0 (fun p => p.rest == "i"),
    .clear 1, .gone 2] exState = some s' ∧ Good s' ∧ s'.lists = [[], []] := by
  have hl : LegalRun [.add 1 ⟨some 2, "v"⟩ true, .gone 1, .born 1, .remove 0 (fun p => p.rest == "i"),
      .clear 1, .gone 2] exState := by
    refine ⟨fun x hx => ?_, fun s₁ h₁ => ⟨?_, fun s₂ h₂ => ⟨?_, fun s₃ h₃ => ⟨trivial, fun s₄ h₄ =>
      ⟨trivial, fun s₅ h₅ => ⟨?_, fun _ _ => trivial⟩⟩⟩⟩⟩⟩
    · cases hx
      decide
    · cases h₁
      change (_ : Option ℕ) ≠ none
      decide +kernel
    · cases h₁
      cases h₂
      change (_ : Option ℕ) = none
      decide +kernel
    · cases h₁
      cases h₂
      cases h₃
      cases h₄
      cases h₅
      change (_ : Option ℕ) ≠ none
      decide +kernel
  obtain ⟨s', h, g, e⟩ := run_ok _ exState_good hl
  exact ⟨s', h, g, e.trans (by decide +kernel)⟩

example : ∃ n', assignSelf (fun _ => "") (⟨some 1, "v"⟩ : Probe String) exState.n =
    some (⟨none, ""⟩, n') ∧ n' 1 = some 1 ∧ (⟨none, ""⟩ : Probe String) ≠ ⟨some 1, "v"⟩ :=
  assign_self_wrong _ rfl rfl

example : ∃ s' s'', step (.gone 1) exState = some s' ∧ (∀ l ∈ s'.lists, ∀ p ∈ l, p.brh ≠ some 1) ∧
    step (.born 1) s' = some s'' ∧ s''.n 1 = some 0 ∧ ∀ l ∈ s''.lists, ∀ p ∈ l, p.brh ≠ some 1 :=
  gone_no_probe exState_good (by decide)

end Gnucap.Probe
