import Verif.SimDataModel
import Mathlib.Algebra.Order.Field.Rat
import Mathlib.Tactic.Linarith
import Mathlib.Tactic.NormNum
import Mathlib.Data.List.Nodup

/-! # Node map (C12), node ordering (C13), voltage limits (C14), kept operating point (C15) -/
set_option linter.unusedSectionVars false
namespace Gnucap.Sim

/-! ## C12 -/

/-- Specification of a good map: distinct names, and the numbers are exactly `0 … how_many()`, each once, `"0"` being 0. -/
structure Dense (m : NodeMap) : Prop where
  names : (m.map Prod.fst).Nodup
  numbers : m.map Prod.snd = List.range (howMany m + 1)
  ground : (['0'], 0) ∈ m

theorem find_some {m : NodeMap} (h : (m.map Prod.fst).Nodup) {s : List Char} {k : ℕ} : find m s = some k ↔ (s, k) ∈ m := by
  unfold find
  induction m with
  | nil => simp
  | cons e m ih =>
    simp only [List.map_cons, List.nodup_cons] at h
    rw [List.find?_cons]
    by_cases he : e.1 = s
    · simp only [he, decide_true, Option.map_some, Option.some.injEq, List.mem_cons]
      constructor
      · intro hk; left; exact Prod.ext he.symm hk.symm
      · rintro (h1 | h1)
        · rw [← h1]
        · exact absurd (he ▸ List.mem_map_of_mem (f := Prod.fst) h1) h.1
    · simp only [he, decide_false, List.mem_cons]
      rw [ih h.2]
      constructor
      · exact Or.inr
      · rintro (h1 | h1)
        · exact absurd (by rw [← h1]) he
        · exact h1

theorem find_none {m : NodeMap} {s : List Char} : find m s = none ↔ s ∉ m.map Prod.fst := by
  unfold find
  induction m with
  | nil => simp
  | cons e m ih =>
    rw [List.find?_cons]
    by_cases he : e.1 = s
    · simp [he]
    · simp only [he, decide_false]
      rw [ih]
      simp [Ne.symm he]

theorem dense_init : Dense nmInit := ⟨by decide, by decide, by decide⟩

theorem dense_pos {m : NodeMap} (h : Dense m) : 0 < m.length := List.length_pos_of_mem h.ground

theorem dense_step {m : NodeMap} (h : Dense m) (op : NmOp) : Dense (nmStep m op).1 ∧ ∃ t, (nmStep m op).1 = m ++ t := by
  cases op with
  | look ci s => exact ⟨h, [], by simp [nmStep]⟩
  | new ci s0 =>
    simp only [nmStep, newNode]
    generalize (if ci = true then toLower s0 else s0) = s
    cases hf : find m s with
    | some k => exact ⟨h, [], by simp⟩
    | none =>
      have hp := dense_pos h
      refine ⟨⟨?_, ?_, ?_⟩, _, rfl⟩
      · simp only [List.map_append, List.map_cons, List.map_nil]
        rw [List.nodup_append]
        refine ⟨h.names, by simp, ?_⟩
        intro a ha b hb
        simp only [List.mem_singleton] at hb
        subst hb
        intro hab
        exact find_none.mp hf (hab ▸ ha)
      · simp only [howMany, List.map_append, List.map_cons, List.map_nil, List.length_append, List.length_singleton]
        rw [h.numbers]
        have : howMany m + 1 = m.length := by unfold howMany; omega
        rw [this]
        have e : m.length + 1 - 1 + 1 = m.length + 1 := by omega
        rw [e, List.range_succ]
        simp
      · exact List.mem_append_left _ h.ground

theorem dense_run {m : NodeMap} (h : Dense m) (ops : List NmOp) : Dense (nmRun m ops) ∧ ∃ t, nmRun m ops = m ++ t := by
  induction ops generalizing m with
  | nil => exact ⟨h, [], by simp [nmRun]⟩
  | cons op ops ih =>
    obtain ⟨h1, t1, e1⟩ := dense_step h op
    obtain ⟨h2, t2, e2⟩ := ih h1
    exact ⟨h2, t1 ++ t2, by rw [nmRun, e2, e1, List.append_assoc]⟩

/-- C12: after any sequence of calls the map is dense. -/
theorem nodemap_dense (ops : List NmOp) : Dense (nmRun nmInit ops) := (dense_run dense_init ops).1

/-- C12: what `new_node` answers is from then on, for ever, what a lookup of that (case folded) name answers;
and it is within `0 … how_many()`. -/
theorem nodemap_stable (ops ops' : List NmOp) (ci : Bool) (s : List Char) :
    let k := (newNode ci (nmRun nmInit ops) s).2
    let m' := nmRun (newNode ci (nmRun nmInit ops) s).1 ops'
    (∀ ci', lookup ci' m' (if ci then toLower s else s) = some k) ∧ k ≤ howMany m' := by
  intro k m'
  have hd := nodemap_dense ops
  have hs := dense_step hd (.new ci s)
  have hr := dense_run hs.1 ops'
  have hk : ((if ci then toLower s else s), k) ∈ (newNode ci (nmRun nmInit ops) s).1 := by
    simp only [k, newNode]
    cases hf : find (nmRun nmInit ops) (if ci = true then toLower s else s) with
    | some k => exact (find_some hd.names).mp hf
    | none => simp
  have hm : ((if ci then toLower s else s), k) ∈ m' := by
    obtain ⟨t, ht⟩ := hr.2
    show _ ∈ nmRun (nmStep (nmRun nmInit ops) (.new ci s)).1 ops'
    rw [ht]; exact List.mem_append_left _ hk
  have hdm : Dense m' := hr.1
  refine ⟨fun ci' => ?_, ?_⟩
  · unfold lookup; rw [(find_some hdm.names).mpr hm]
  · have := List.mem_map_of_mem (f := Prod.snd) hm
    rw [hdm.numbers, List.mem_range] at this
    exact Nat.lt_succ_iff.mp this

theorem dense_inj {m : NodeMap} (h : Dense m) {a b : List Char} {k : ℕ} (ha : (a, k) ∈ m) (hb : (b, k) ∈ m) : a = b := by
  have hn : (m.map Prod.snd).Nodup := by rw [h.numbers]; exact List.nodup_range
  have := List.inj_on_of_nodup_map hn ha hb rfl
  exact congrArg Prod.fst this

/-- C12: two `new_node` calls, anywhere in a history, get the same number iff the names are the same (after case folding
when that option is on). -/
theorem nodemap_same_iff (ops ops' : List NmOp) (ci ci' : Bool) (s s' : List Char) :
    let m1 := nmRun nmInit ops
    let m2 := nmRun (newNode ci m1 s).1 ops'
    (newNode ci m1 s).2 = (newNode ci' m2 s').2 ↔ (if ci then toLower s else s) = (if ci' then toLower s' else s') := by
  intro m1 m2
  have hd1 : Dense m1 := nodemap_dense ops
  have hd2 : Dense m2 := (dense_run (dense_step hd1 (.new ci s)).1 ops').1
  have hd3 := (dense_step hd2 (.new ci' s')).1
  have h1 := (nodemap_stable ops ops' ci s).1 false
  have h2 : lookup false m2 (if ci then toLower s else s) = some (newNode ci m1 s).2 := h1
  have h3 : ((if ci then toLower s else s), (newNode ci m1 s).2) ∈ m2 := by
    rw [← find_some hd2.names]
    unfold lookup at h2
    cases hf : find m2 (if ci then toLower s else s) with
    | none => rw [hf] at h2; exact absurd h2 (by simp)
    | some k => rw [hf] at h2; simpa using h2
  have h4 : ((if ci' then toLower s' else s'), (newNode ci' m2 s').2) ∈ (newNode ci' m2 s').1 := by
    simp only [newNode]
    cases hf : find m2 (if ci' = true then toLower s' else s') with
    | some k => exact (find_some hd2.names).mp hf
    | none => simp
  have h5 : ((if ci then toLower s else s), (newNode ci m1 s).2) ∈ (newNode ci' m2 s').1 := by
    obtain ⟨t, ht⟩ := (dense_step hd2 (.new ci' s')).2
    have : (newNode ci' m2 s').1 = m2 ++ t := ht
    rw [this]; exact List.mem_append_left _ h3
  constructor
  · intro he
    rw [he] at h5
    exact dense_inj hd3 h5 h4
  · intro he
    rw [he] at h5
    have a := (find_some hd3.names).mpr h5
    have b := (find_some hd3.names).mpr h4
    rw [a] at b
    exact Option.some.inj b

/-- C12: a lookup never adds a name; an unknown name (in both spellings the lookup tries) gives none. -/
theorem nodemap_lookup (m : NodeMap) (ci : Bool) (s : List Char) :
    (nmStep m (.look ci s)).1 = m ∧
    (lookup ci m s = none ↔ s ∉ m.map Prod.fst ∧ (ci = true → toLower s ∉ m.map Prod.fst)) := by
  refine ⟨rfl, ?_⟩
  unfold lookup
  cases hf : find m s with
  | some k =>
    have : ¬ s ∉ m.map Prod.fst := by
      intro hn; rw [find_none.mpr hn] at hf; exact absurd hf (by simp)
    simp only [reduceCtorEq, false_iff]
    exact fun h => this h.1
  | none =>
    have := find_none.mp hf
    cases ci with
    | false => simp only [Bool.false_eq_true, if_false, IsEmpty.forall_iff, and_true, true_iff]; exact this
    | true => simp only [if_true, true_imp_iff]; rw [find_none]; exact ⟨fun h => ⟨this, h⟩, fun h => h.2⟩

/-- The option matters: the same text can get two numbers if the option is changed in between. -/
example : (newNode true (newNode false nmInit ['A']).1 ['A']).2 = 2 ∧ (newNode false nmInit ['A']).2 = 1 := by decide

example : nmRun nmInit [.new false ['a'], .look false ['b'], .new true ['B'], .new false ['b'], .new false ['0']]
    = [(['0'], 0), (['a'], 1), (['b'], 2)] := by decide

/-! ## C13 -/

theorem forRange_upd (lo hi : ℕ) (f g : ℕ → ℕ) : lo ≤ hi → ∀ j,
    forRange lo hi (fun i (nm : ℕ → ℕ) => upd nm i (f i)) g j = if lo ≤ j ∧ j < hi then f j else g j := by
  intro hle
  refine forRange_inv (P := fun i (t : ℕ → ℕ) => ∀ j, t j = if lo ≤ j ∧ j < i then f j else g j) hle ?_ ?_
  · intro j; rw [if_neg (by omega)]
  · intro i t h1 h2 ih j
    unfold upd
    by_cases hj : j = i
    · subst hj; simp [h1]
    · rw [if_neg hj, ih j]
      by_cases h3 : lo ≤ j ∧ j < i
      · rw [if_pos h3, if_pos (by omega)]
      · rw [if_neg h3, if_neg (by omega)]

/-- Reference: what the orders mean. -/
def orderSpec (o : Order) (n j : ℕ) : ℕ :=
  match o with
  | .forward => j
  | _ => if j = 0 then 0 else n + 1 - j

/-- C13: every order option gives the documented map; the old contents of the array do not matter. -/
theorem mapNodes_spec (o : Order) (n : ℕ) (nm : ℕ → ℕ) (j : ℕ) (hj : j ≤ n) : mapNodes o n nm j = orderSpec o n j := by
  cases o <;> simp only [mapNodes, orderAuto, orderReverse, orderForward, orderSpec]
  all_goals first
    | rw [forRange_upd 1 (n + 1) (fun node => n - node + 1) (upd nm 0 0) (by omega)]
    | rw [forRange_upd 1 (n + 1) (fun node => node) (upd nm 0 0) (by omega)]
  all_goals
    by_cases h0 : j = 0
    · subst h0; simp [upd]
    · try rw [if_neg h0]
      rw [if_pos (by omega)]
      try omega

/-- C13: the map is a permutation of `0..n` fixing ground. -/
theorem mapNodes_bijective (o : Order) (n : ℕ) (nm : ℕ → ℕ) :
    mapNodes o n nm 0 = 0 ∧
    (∀ j, j ≤ n → mapNodes o n nm j ≤ n) ∧
    (∀ i j, i ≤ n → j ≤ n → mapNodes o n nm i = mapNodes o n nm j → i = j) ∧
    (∀ k, k ≤ n → ∃ j, j ≤ n ∧ mapNodes o n nm j = k) := by
  refine ⟨?_, ?_, ?_, ?_⟩
  · rw [mapNodes_spec o n nm 0 (by omega)]; cases o <;> simp [orderSpec]
  · intro j hj
    rw [mapNodes_spec o n nm j hj]
    cases o <;> simp only [orderSpec] <;> (try split) <;> omega
  · intro i j hi hj
    rw [mapNodes_spec o n nm i hi, mapNodes_spec o n nm j hj]
    cases o <;> simp only [orderSpec] <;> (try (split <;> split)) <;> omega
  · intro k hk
    refine ⟨orderSpec o n k, ?_, ?_⟩
    · cases o <;> simp only [orderSpec] <;> (try split) <;> omega
    · rw [mapNodes_spec]
      · cases o <;> simp only [orderSpec] <;> (try (split <;> split)) <;> omega
      · cases o <;> simp only [orderSpec] <;> (try split) <;> omega

/-- C13: after `alloc_hold_vectors` the user number stored for each internal number is the inverse of the map. -/
theorem user_number_inverse (o : Order) (n : ℕ) (nm un : ℕ → ℕ) :
    (∀ j, j ≤ n → allocHold n (mapNodes o n nm) un (mapNodes o n nm j) = j) ∧
    (∀ k, k ≤ n → mapNodes o n nm (allocHold n (mapNodes o n nm) un k) = k ∧ allocHold n (mapNodes o n nm) un k ≤ n) := by
  obtain ⟨_, _, hinj, hsur⟩ := mapNodes_bijective o n nm
  have key : ∀ j, j ≤ n → allocHold n (mapNodes o n nm) un (mapNodes o n nm j) = j := by
    have := forRange_inv
      (P := fun i (t : ℕ → ℕ) => ∀ j, j < i → t (mapNodes o n nm j) = j)
      (lo := 0) (hi := n + 1) (f := fun ii un => upd un (mapNodes o n nm ii) ii) (s := un) (by omega)
      (fun j hj => absurd hj (by omega)) ?_
    · intro j hj; exact this j (by omega)
    · intro i t _ h2 ih j hj
      unfold upd
      by_cases he : mapNodes o n nm j = mapNodes o n nm i
      · rw [if_pos he]; exact (hinj j i (by omega) (by omega) he).symm
      · rw [if_neg he]
        have : j ≠ i := fun h => he (by rw [h])
        exact ih j (by omega)
  refine ⟨key, ?_⟩
  intro k hk
  obtain ⟨j, hj, rfl⟩ := hsur k hk
  rw [key j hj]
  exact ⟨rfl, hj⟩

example : (List.range 5).map (mapNodes .auto 4 (fun _ => 77)) = [0, 4, 3, 2, 1] ∧
    (List.range 5).map (allocHold 4 (mapNodes .reverse 4 (fun _ => 77)) (fun _ => 99)) = [0, 4, 3, 2, 1] := by decide

/-! ## C14 -/

variable {F : Type _} [Field F] [LinearOrder F] [IsStrictOrderedRing F]

/-- The limits of `t` contain those of `s`. -/
def Wider (s t : V F) : Prop := s.vmax ≤ t.vmax ∧ t.vmin ≤ s.vmin

omit [IsStrictOrderedRing F] in
theorem setLimit1_keeps (v : F) (s : V F) : setLimit1 v s = { s with vmax := (setLimit1 v s).vmax, vmin := (setLimit1 v s).vmin } := by
  unfold setLimit1
  simp only
  split <;> split <;> rfl

theorem setLimit1_spec (v : F) (s : V F) :
    Wider s (setLimit1 v s) ∧ v + 2/5 ≤ (setLimit1 v s).vmax ∧ (setLimit1 v s).vmin ≤ v - 2/5 ∧
    (v + 2/5 ≤ s.vmax → s.vmin ≤ v - 2/5 → setLimit1 v s = s) := by
  unfold setLimit1 Wider
  by_cases h1 : s.vmax < v + 2/5 <;> by_cases h2 : v - 2/5 < s.vmin <;> simp only [h1, h2, if_true, if_false]
  · refine ⟨⟨by linarith, by linarith⟩, by linarith, by linarith, fun h => absurd h1 (by linarith)⟩
  · refine ⟨⟨by linarith, by linarith⟩, by linarith, by linarith, fun h => absurd h1 (by linarith)⟩
  · refine ⟨⟨by linarith, by linarith⟩, by linarith, by linarith, fun _ h => absurd h2 (by linarith)⟩
  · refine ⟨⟨by linarith, by linarith⟩, by linarith, by linarith, fun _ _ => trivial⟩

theorem setLimit_inv (s : V F) : ∀ m, 1 ≤ m →
    let t := forRange 1 m (fun ii t => setLimit1 (t.v0 ii) t) s
    t = { s with vmax := t.vmax, vmin := t.vmin } ∧ Wider s t ∧
    ∀ j, 1 ≤ j → j < m → s.v0 j + 2/5 ≤ t.vmax ∧ t.vmin ≤ s.v0 j - 2/5 := by
  intro m hm
  refine forRange_inv (P := fun i (t : V F) => t = { s with vmax := t.vmax, vmin := t.vmin } ∧ Wider s t ∧
    ∀ j, 1 ≤ j → j < i → s.v0 j + 2/5 ≤ t.vmax ∧ t.vmin ≤ s.v0 j - 2/5) hm ⟨rfl, ⟨le_refl _, le_refl _⟩, fun j _ _ => by omega⟩ ?_
  intro i t h1 h2 ⟨e, w, b⟩
  have hk := setLimit1_keeps (t.v0 i) t
  obtain ⟨w1, u1, l1, _⟩ := setLimit1_spec (t.v0 i) t
  have hv : t.v0 = s.v0 := by rw [e]
  refine ⟨?_, ⟨le_trans w.1 w1.1, le_trans w1.2 w.2⟩, ?_⟩
  · rw [hk]
    generalize (setLimit1 (t.v0 i) t).vmax = a
    generalize (setLimit1 (t.v0 i) t).vmin = b
    rw [e]
  · intro j hj hji
    by_cases he : j = i
    · subst he; rw [← hv]; exact ⟨u1, l1⟩
    · have := b j hj (by omega)
      exact ⟨le_trans this.1 w1.1, le_trans w1.2 this.2⟩

/-- C14: after `set_limit()` every node voltage is inside with the documented margin, the limits did not shrink, nothing
but the limits changed. -/
theorem setLimit_spec (s : V F) :
    (∀ j, 1 ≤ j → j ≤ s.n → s.v0 j + 2/5 ≤ (setLimit s).vmax ∧ (setLimit s).vmin ≤ s.v0 j - 2/5) ∧
    s.vmax ≤ (setLimit s).vmax ∧ (setLimit s).vmin ≤ s.vmin ∧
    setLimit s = { s with vmax := (setLimit s).vmax, vmin := (setLimit s).vmin } := by
  obtain ⟨h1, h2, h3⟩ := setLimit_inv s (s.n + 1) (by omega)
  exact ⟨fun j hj hn => h3 j hj (by omega), h2.1, h2.2, h1⟩

/-- C14: a second call changes nothing. -/
theorem setLimit_idempotent (s : V F) : setLimit (setLimit s) = setLimit s := by
  obtain ⟨h1, _, _, e⟩ := setLimit_spec s
  have hn : (setLimit s).n = s.n := by rw [e]
  have hv : (setLimit s).v0 = s.v0 := by rw [e]
  generalize hg : setLimit s = t at *
  unfold setLimit
  refine forRange_inv (P := fun _ (u : V F) => u = t) (by omega) rfl ?_
  intro i u a b hu
  subst hu
  obtain ⟨p, q⟩ := h1 i a (by omega)
  rw [← hv] at p q
  exact (setLimit1_spec (u.v0 i) u).2.2.2 p q

/-- the voltages restored/kept never touch the limits -/
theorem loops_keep_limits (s : V F) :
    ((keepVoltages s).vmax = s.vmax ∧ (keepVoltages s).vmin = s.vmin) ∧
    ((restoreVoltages s).vmax = s.vmax ∧ (restoreVoltages s).vmin = s.vmin) := by
  constructor
  · unfold keepVoltages
    split
    · simp only
      exact forRange_inv (P := fun _ (u : V F) => u.vmax = s.vmax ∧ u.vmin = s.vmin) (by omega) ⟨rfl, rfl⟩ (fun i t _ _ h => h)
    · exact ⟨rfl, rfl⟩
  · unfold restoreVoltages
    exact forRange_inv (P := fun _ (u : V F) => u.vmax = s.vmax ∧ u.vmin = s.vmin) (by omega) ⟨rfl, rfl⟩ (fun i t _ _ h => h)

/-- A run of events. -/
def vRun (s : V F) (ops : List (VOp F)) : V F := ops.foldl vStep s

/-- C14: through any history without `clear_limit` the limits only grow. -/
theorem limits_grow (ops : List (VOp F)) (h : ∀ op ∈ ops, ∀ a b, op ≠ .clearLimit a b) (s : V F) : Wider s (vRun s ops) := by
  induction ops generalizing s with
  | nil => exact ⟨le_refl _, le_refl _⟩
  | cons op ops ih =>
    have h1 : Wider s (vStep s op) := by
      cases op with
      | iterate v => exact ⟨le_refl _, le_refl _⟩
      | accept v => exact ⟨le_refl _, le_refl _⟩
      | time v => exact ⟨le_refl _, le_refl _⟩
      | setLimit => exact ⟨(setLimit_spec s).2.1, (setLimit_spec s).2.2.1⟩
      | setLimit1 v => exact (setLimit1_spec v s).1
      | clearLimit a b => exact absurd rfl (h _ (List.mem_cons_self) a b)
      | keep => have := (loops_keep_limits s).1; exact ⟨le_of_eq this.1.symm, le_of_eq this.2⟩
      | restore => have := (loops_keep_limits s).2; exact ⟨le_of_eq this.1.symm, le_of_eq this.2⟩
      | freeze b => exact ⟨le_refl _, le_refl _⟩
    have h2 := ih (fun o ho => h o (List.mem_cons_of_mem _ ho)) (vStep s op)
    exact ⟨le_trans h1.1 h2.1, le_trans h2.2 h1.2⟩

def demoV (n : ℕ) (v0 : ℕ → ℚ) : V ℚ := ⟨n, v0, 0, 0, 0, 5, -5, false, 0, 0⟩

example : (setLimit (demoV 2 (fun j => if j = 1 then 7 else -3))).vmax = 15/2 := by
  norm_num [demoV, setLimit, forRange, forUp, setLimit1]

/-! ## C15 -/

omit [IsStrictOrderedRing F] in
theorem keep_vdc (s : V F) (hf : s.freeze = false) :
    (∀ j, 1 ≤ j → j ≤ s.n → (keepVoltages s).vdc j = s.v0 j) ∧ (keepVoltages s).n = s.n ∧ (keepVoltages s).v0 = s.v0 := by
  unfold keepVoltages
  rw [if_pos hf]
  have := forRange_inv (P := fun i (t : V F) => t.v0 = s.v0 ∧ t.n = s.n ∧ ∀ j, 1 ≤ j → j < i → t.vdc j = s.v0 j)
    (lo := 1) (hi := s.n + 1) (f := fun ii t => { t with vdc := upd t.vdc ii (t.v0 ii) }) (s := s) (by omega)
    ⟨rfl, rfl, fun j _ _ => by omega⟩ ?_
  · exact ⟨fun j h1 h2 => this.2.2 j h1 (by omega), this.2.1, this.1⟩
  · intro i t h1 h2 ⟨a, b, c⟩
    refine ⟨a, b, fun j h3 h4 => ?_⟩
    simp only [upd]
    by_cases he : j = i
    · rw [if_pos he, he, a]
    · rw [if_neg he]; exact c j h3 (by omega)

omit [IsStrictOrderedRing F] in
theorem restore_spec (s : V F) :
    (∀ j, 1 ≤ j → j ≤ s.n → (restoreVoltages s).v0 j = s.vdc j ∧ (restoreVoltages s).vt1 j = s.vdc j) ∧
    (restoreVoltages s).vdc = s.vdc ∧ (restoreVoltages s).n = s.n := by
  unfold restoreVoltages
  have := forRange_inv (P := fun i (t : V F) => t.vdc = s.vdc ∧ t.n = s.n ∧ ∀ j, 1 ≤ j → j < i → t.v0 j = s.vdc j ∧ t.vt1 j = s.vdc j)
    (lo := 1) (hi := s.n + 1) (f := fun ii t => { t with v0 := upd t.v0 ii (t.vdc ii), vt1 := upd t.vt1 ii (t.vdc ii) }) (s := s) (by omega)
    ⟨rfl, rfl, fun j _ _ => by omega⟩ ?_
  · exact ⟨fun j h1 h2 => this.2.2 j h1 (by omega), this.1, this.2.1⟩
  · intro i t h1 h2 ⟨a, b, c⟩
    refine ⟨a, b, fun j h3 h4 => ?_⟩
    simp only [upd]
    by_cases he : j = i
    · rw [if_pos he, if_pos he, he, a]; exact ⟨rfl, rfl⟩
    · rw [if_neg he, if_neg he]; exact c j h3 (by omega)

theorem vdc_step (s : V F) (op : VOp F) (h : op = .keep → s.freeze = true) :
    (vStep s op).vdc = s.vdc ∧ (vStep s op).n = s.n := by
  cases op with
  | iterate v => exact ⟨rfl, rfl⟩
  | accept v => exact ⟨rfl, rfl⟩
  | time v => exact ⟨rfl, rfl⟩
  | setLimit => have := (setLimit_spec s).2.2.2; simp only [vStep]; rw [this]; exact ⟨rfl, rfl⟩
  | setLimit1 v => simp only [vStep]; rw [setLimit1_keeps]; exact ⟨rfl, rfl⟩
  | clearLimit a b => exact ⟨rfl, rfl⟩
  | keep =>
    simp only [vStep, keepVoltages]
    rw [if_neg (by rw [h rfl]; simp)]; exact ⟨rfl, rfl⟩
  | restore => exact (restore_spec s).2
  | freeze b => exact ⟨rfl, rfl⟩

/-- C15: a restore gives back, for every node, the voltage at the last `keep_voltages` made while time was not frozen,
whatever happened since (iterations, other analyses, keeps under frozen time, restores). -/
theorem restore_last_kept (s : V F) (b : List (VOp F)) (hf : s.freeze = false)
    (hb : ∀ b1 b2, b = b1 ++ VOp.keep :: b2 → (vRun (vStep s .keep) b1).freeze = true) (j : ℕ) (h1 : 1 ≤ j) (h2 : j ≤ s.n) :
    (restoreVoltages (vRun (vStep s .keep) b)).v0 j = s.v0 j ∧ (restoreVoltages (vRun (vStep s .keep) b)).vt1 j = s.v0 j := by
  have key : ∀ (b : List (VOp F)) (t : V F), (∀ b1 b2, b = b1 ++ VOp.keep :: b2 → (vRun t b1).freeze = true) →
      (vRun t b).vdc = t.vdc ∧ (vRun t b).n = t.n := by
    intro b
    induction b with
    | nil => intro t _; exact ⟨rfl, rfl⟩
    | cons op b ih =>
      intro t ht
      obtain ⟨e1, e2⟩ := vdc_step t op (fun h => by subst h; exact ht [] b rfl)
      obtain ⟨e3, e4⟩ := ih (vStep t op) (fun b1 b2 he => ht (op :: b1) b2 (by rw [he]; rfl))
      exact ⟨by rw [← e1, ← e3]; rfl, by rw [← e2, ← e4]; rfl⟩
  obtain ⟨e1, e2⟩ := key b (vStep s .keep) hb
  obtain ⟨k1, k2, _⟩ := keep_vdc s hf
  have hn : j ≤ (vRun (vStep s .keep) b).n := by rw [e2]; show j ≤ (keepVoltages s).n; omega
  obtain ⟨r1, r2⟩ := (restore_spec (vRun (vStep s .keep) b)).1 j h1 hn
  rw [r1, r2, e1]
  exact ⟨k1 j h1 h2, k1 j h1 h2⟩

/-- a history as in the theorem: keep, iterate, freeze, keep again (ineffective), restore -/
example : (restoreVoltages (vRun (vStep (demoV 1 (fun _ => 3)) .keep) [.iterate (fun _ => 8), .freeze true, .keep, .accept (fun _ => 2)])).v0 1 = 3 := by
  norm_num [demoV, restoreVoltages, vRun, vStep, keepVoltages, forRange, forUp, upd]

end Gnucap.Sim
