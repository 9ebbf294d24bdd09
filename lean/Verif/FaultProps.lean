import Verif.FaultModel
import Mathlib.Tactic.Ring
import Mathlib.Tactic.FieldSimp
import Mathlib.Tactic.Linarith
import Mathlib.Data.List.Induction

/-!
# `fault`, `unfault`, `sweep` (C73)
-/
namespace Gnucap.Fault
variable {V C : Type}

/-! ## Specification -/

/-- What is expected of one element with commands that change values: its present value, and the one from before the first fault -/
def track (p : ℕ) (x : El V C × Option (El V C)) : Op V → El V C × Option (El V C)
  | .fault i v => if i = p then (⟨v, none⟩, x.2 <|> some x.1) else x
  | .modify i v => if i = p then (⟨v, none⟩, x.2) else x
  | _ => x

/-- commands on elements in `P` -/
def Op.Within (P : ℕ → Prop) : Op V → Prop
  | .fault i _ => P i
  | .modify i _ => P i
  | .run => True
  | _ => False

/-- elements in `P` are there, and belong to the circuit or a definition, not to an instance -/
structure Own (P : ℕ → Prop) (s : St V C) : Prop where
  there : ∀ p, P p → ∃ e, s.heap p = some (.elem e)
  known : ∀ p, P p → p < s.next
  apart : ∀ x ∈ s.insts, ∀ p ∈ x.parts, ¬ P p

/-! ## heap -/

theorem put_same (h : ℕ → Option (Card V C)) (i : ℕ) (c) : put h i c i = c := by simp [put]
theorem put_other (h : ℕ → Option (Card V C)) {i j : ℕ} (c) (hj : j ≠ i) : put h i c j = h j := by simp [put, hj]

/-- the entry of the stack that is restored last -/
def bottom (p : ℕ) : List (ℕ × El V C) → Option (El V C)
  | [] => none
  | (i, e) :: l => bottom p l <|> if i = p then some e else none

theorem unfault_spec : ∀ (l : List (ℕ × El V C)) (h : ℕ → Option (Card V C)), (∀ x ∈ l, ∃ e, h x.1 = some (.elem e)) →
    ∃ h', unfaultFrom h l = .ok h' ∧ ∀ p, h' p = ((bottom p l).map Card.elem <|> h p)
  | [], h, _ => ⟨h, rfl, fun p => by simp [bottom]⟩
  | (i, e) :: l, h, hl => by
    obtain ⟨e0, he0⟩ := hl (i, e) (by simp)
    have hl' : ∀ x ∈ l, ∃ e', put h i (some (.elem e)) x.1 = some (.elem e') := by
      intro x hx
      by_cases hxi : x.1 = i
      · exact ⟨e, by rw [hxi, put_same]⟩
      · rw [put_other _ _ hxi]; exact hl x (by simp [hx])
    obtain ⟨h', e1, e2⟩ := unfault_spec l (put h i (some (.elem e))) hl'
    refine ⟨h', ?_, ?_⟩
    · simp only at he0
      rw [unfaultFrom, he0]; exact e1
    · intro p
      rw [e2 p, bottom]
      by_cases hp : i = p
      · subst hp
        rw [put_same]
        cases bottom i l <;> simp
      · rw [put_other _ _ (Ne.symm hp)]; simp [hp]

theorem clones_spec : ∀ (l : List ℕ) (n : ℕ) (h : ℕ → Option (Card V C)), (∀ t ∈ l, t < n) →
    n ≤ (clones n h l).1 ∧ (∀ p, p < n → (clones n h l).2.1 p = h p) ∧ (∀ q ∈ (clones n h l).2.2, n ≤ q ∧ q < (clones n h l).1) ∧
    (clones n h l).2.2.map (clones n h l).2.1 = l.map h
  | [], n, h, _ => ⟨le_rfl, fun _ _ => rfl, fun _ h => by simp [clones] at h, rfl⟩
  | t :: l, n, h, ht => by
    obtain ⟨a, b, c, d⟩ := clones_spec l (n + 1) (put h n (h t)) (fun x hx => Nat.lt_succ_of_lt (ht x (by simp [hx])))
    have hn : (clones (n + 1) (put h n (h t)) l).2.1 n = h t := by rw [b n (Nat.lt_succ_self n), put_same]
    refine ⟨?_, ?_, ?_, ?_⟩
    · simp only [clones]; omega
    · intro p hp
      simp only [clones]
      rw [b p (by omega), put_other _ _ (by omega)]
    · intro q hq
      simp only [clones, List.mem_cons] at hq ⊢
      rcases hq with rfl | hq
      · exact ⟨le_rfl, by omega⟩
      · have := c q hq; omega
    · simp only [clones, List.map_cons, hn, d]
      congr 1
      refine List.map_congr_left fun x hx => ?_
      exact put_other _ _ (by have := ht x (by simp [hx]); omega)

theorem freed (l : List ℕ) (h : ℕ → Option (Card V C)) (p : ℕ) :
    l.foldl (fun h q => put h q none) h p = if p ∈ l then none else h p := by
  induction l generalizing h with
  | nil => simp
  | cons q l ih =>
    rw [List.foldl_cons, ih]
    by_cases hp : p ∈ l
    · simp [hp]
    · by_cases hq : p = q
      · subst hq; simp [hp, put_same]
      · simp [hp, hq, put_other]

/-- numbers in use -/
structure Wf (s : St V C) : Prop where
  tmpl : ∀ x ∈ s.insts, ∀ t ∈ x.tmpl, t < s.next
  parts : ∀ x ∈ s.insts, ∀ t ∈ x.parts, t < s.next

/-- making the instances anew: what is kept, what is freed -/
theorem renewAll (xs : List Inst) : ∀ (s : St V C), (∀ x ∈ xs, ∀ t ∈ x.tmpl, t < s.next) → (∀ x ∈ xs, ∀ t ∈ x.parts, t < s.next) →
    let s' := xs.foldl renew s
    s.next ≤ s'.next ∧ s'.stack = s.stack ∧ (∀ p, p < s.next → s'.heap p = if ∃ x ∈ xs, p ∈ x.parts then none else s.heap p) ∧
    (∀ x ∈ s'.insts, x ∈ s.insts ∨ ∀ q ∈ x.parts, s.next ≤ q ∧ q < s'.next) ∧
    s'.insts.map Inst.tmpl = s.insts.map Inst.tmpl ++ xs.map Inst.tmpl := by
  induction xs with
  | nil => intro s _ _; exact ⟨le_rfl, rfl, fun p _ => by simp, fun x hx => .inl hx, by simp⟩
  | cons x xs ih =>
    intro s ht hq
    obtain ⟨a, b, c, d⟩ := clones_spec x.tmpl s.next (x.parts.foldl (fun h p => put h p none) s.heap) (ht x (by simp))
    have hn : (renew s x).next = (clones s.next (x.parts.foldl (fun h p => put h p none) s.heap) x.tmpl).1 := rfl
    have hm : s.next ≤ (renew s x).next := hn ▸ a
    obtain ⟨i1, i2, i3, i4, i5⟩ := ih (renew s x) (fun y hy t h => lt_of_lt_of_le (ht y (by simp [hy]) t h) hm)
      (fun y hy t h => lt_of_lt_of_le (hq y (by simp [hy]) t h) hm)
    refine ⟨hm.trans i1, i2, ?_, ?_, ?_⟩
    · intro p hp
      rw [List.foldl_cons, i3 p (lt_of_lt_of_le hp hm)]
      have hp' : (renew s x).heap p = if p ∈ x.parts then none else s.heap p := by
        show (clones s.next (x.parts.foldl (fun h p => put h p none) s.heap) x.tmpl).2.1 p = _
        rw [b p hp, freed]
      rw [hp']
      by_cases h1 : ∃ y ∈ xs, p ∈ y.parts
      · obtain ⟨y, hy, hyp⟩ := h1
        rw [if_pos ⟨y, hy, hyp⟩, if_pos ⟨y, by simp [hy], hyp⟩]
      · rw [if_neg h1]
        by_cases h2 : p ∈ x.parts
        · rw [if_pos h2, if_pos ⟨x, by simp, h2⟩]
        · rw [if_neg h2, if_neg]
          rintro ⟨y, hy, hyp⟩
          rcases List.mem_cons.mp hy with rfl | hy
          · exact h2 hyp
          · exact h1 ⟨y, hy, hyp⟩
    · intro y hy
      rcases i4 y hy with h | h
      · have : y ∈ s.insts ++ [⟨x.tmpl, (clones s.next (x.parts.foldl (fun h p => put h p none) s.heap) x.tmpl).2.2⟩] := h
        rcases List.mem_append.mp this with h | h
        · exact .inl h
        · right
          rw [List.mem_singleton] at h
          subst h
          intro q hq'
          have := c q hq'
          exact ⟨this.1, lt_of_lt_of_le (hn ▸ this.2) i1⟩
      · exact .inr fun q hq' => ⟨hm.trans (h q hq').1, (h q hq').2⟩
    · rw [List.foldl_cons, i5]
      show (s.insts ++ [_]).map Inst.tmpl ++ xs.map Inst.tmpl = _
      simp

/-- the parts made are copies of what the definitions have then -/
theorem renewAll_copies (xs : List Inst) : ∀ (s : St V C), (∀ x ∈ xs, ∀ t ∈ x.tmpl, t < s.next) → (∀ x ∈ xs, ∀ t ∈ x.parts, t < s.next) →
    (∀ x ∈ xs, ∀ t ∈ x.tmpl, ∀ y ∈ xs, t ∉ y.parts) →
    ∀ x ∈ (xs.foldl renew s).insts, x ∈ s.insts ∨ (∃ z ∈ xs, z.tmpl = x.tmpl) ∧ x.parts.map (xs.foldl renew s).heap = x.tmpl.map s.heap := by
  induction xs with
  | nil => intro s _ _ _ x hx; exact .inl hx
  | cons x xs ih =>
    intro s ht hq hd y hy
    obtain ⟨a, b, c, d⟩ := clones_spec x.tmpl s.next (x.parts.foldl (fun h p => put h p none) s.heap) (ht x (by simp))
    have hn : (renew s x).next = (clones s.next (x.parts.foldl (fun h p => put h p none) s.heap) x.tmpl).1 := rfl
    have hm : s.next ≤ (renew s x).next := hn ▸ a
    have t1 : ∀ y ∈ xs, ∀ t ∈ y.tmpl, t < (renew s x).next := fun y hy t h => lt_of_lt_of_le (ht y (by simp [hy]) t h) hm
    have t2 : ∀ y ∈ xs, ∀ t ∈ y.parts, t < (renew s x).next := fun y hy t h => lt_of_lt_of_le (hq y (by simp [hy]) t h) hm
    have keep : ∀ p, p < s.next → p ∉ x.parts → (renew s x).heap p = s.heap p := by
      intro p hp hx
      show (clones s.next (x.parts.foldl (fun h p => put h p none) s.heap) x.tmpl).2.1 p = _
      rw [b p hp, freed, if_neg hx]
    obtain ⟨i1, i2, i3, i4, i5⟩ := renewAll xs (renew s x) t1 t2
    rw [List.foldl_cons] at hy ⊢
    rcases ih (renew s x) t1 t2 (fun y hy t h z hz => hd y (by simp [hy]) t h z (by simp [hz])) y hy with h | h
    · have : y ∈ s.insts ++ [⟨x.tmpl, (clones s.next (x.parts.foldl (fun h p => put h p none) s.heap) x.tmpl).2.2⟩] := h
      rcases List.mem_append.mp this with h | h
      · exact .inl h
      · right
        rw [List.mem_singleton] at h
        subst h
        have e1 : x.tmpl.map (x.parts.foldl (fun h p => put h p none) s.heap) = x.tmpl.map s.heap := by
          refine List.map_congr_left fun t h => ?_
          rw [freed, if_neg (hd x (by simp) t h x (by simp))]
        refine ⟨⟨x, by simp, rfl⟩, ?_⟩
        rw [← e1, ← d]
        refine List.map_congr_left fun q h => ?_
        have hb := c q h
        rw [i3 q (hn ▸ hb.2), if_neg]
        · rfl
        · rintro ⟨z, hz, hzq⟩
          have := hq z (by simp [hz]) q hzq
          omega
    · right
      obtain ⟨⟨z, hz, hzy⟩, h⟩ := h
      refine ⟨⟨z, by simp [hz], hzy⟩, ?_⟩
      rw [h, ← hzy]
      exact List.map_congr_left fun t h => keep t (ht z (by simp [hz]) t h) (hd z (by simp [hz]) t h x (by simp))

/-- C73: an analysis keeps all cards but the parts of instances; if anything was changed before it makes these anew from the
definitions -/
theorem run_spec (s : St V C) (w : Wf s) :
    s.next ≤ s.run.next ∧ s.run.stack = s.stack ∧
    (∀ p, p < s.next → s.run.heap p = if s.expanded = false ∧ ∃ x ∈ s.insts, p ∈ x.parts then none else s.heap p) ∧
    (∀ x ∈ s.run.insts, (s.expanded = true ∧ x ∈ s.insts) ∨ ∀ q ∈ x.parts, s.next ≤ q ∧ q < s.run.next) ∧
    s.run.insts.map Inst.tmpl = s.insts.map Inst.tmpl := by
  by_cases hE : s.expanded = true
  · have e0 : s.run = s := by unfold St.run; rw [if_pos hE]
    rw [e0]
    exact ⟨le_rfl, rfl, fun p _ => by simp [hE], fun x hx => .inl ⟨hE, hx⟩, rfl⟩
  · have e0 : s.run = { s.insts.foldl renew { s with insts := [] } with expanded := true } := by unfold St.run; rw [if_neg hE]
    obtain ⟨a, b, c, d, e⟩ := renewAll s.insts { s with insts := [] } w.tmpl w.parts
    rw [e0]
    have hE' : s.expanded = false := by simpa using hE
    refine ⟨a, b, ?_, ?_, e⟩
    · intro p hp
      have := c p hp
      simp only [hE', true_and]
      simp only [hE'] at this
      exact this
    · intro x hx
      rcases d x hx with h | h
      · exact absurd h (List.not_mem_nil)
      · exact .inr h

theorem wf_run (s : St V C) (w : Wf s) : Wf s.run := by
  obtain ⟨a, b, c, d, e⟩ := run_spec s w
  refine ⟨?_, ?_⟩
  · intro x hx t ht
    have : x.tmpl ∈ s.insts.map Inst.tmpl := e ▸ List.mem_map_of_mem hx
    obtain ⟨y, hy, hyx⟩ := List.mem_map.mp this
    exact lt_of_lt_of_le (w.tmpl y hy t (hyx ▸ ht)) a
  · intro x hx t ht
    rcases d x hx with h | h
    · exact lt_of_lt_of_le (w.parts x h.2 t ht) a
    · exact (h t ht).2

/-! ## any commands on elements outside instances, then `unfault` -/

/-- the stack and the circuit fit together -/
structure Good (P : ℕ → Prop) (s : St V C) : Prop where
  wf : Wf s
  own : Own P s
  stack : ∀ x ∈ s.stack, P x.1

theorem own_run {P : ℕ → Prop} (s : St V C) (w : Wf s) (o : Own P s) : Own P s.run ∧ ∀ p, P p → s.run.heap p = s.heap p := by
  obtain ⟨a, b, c, d, e⟩ := run_spec s w
  have hh : ∀ p, P p → s.run.heap p = s.heap p := by
    intro p hp
    rw [c p (o.known p hp), if_neg]
    rintro ⟨_, x, hx, hxp⟩
    exact o.apart x hx p hxp hp
  refine ⟨⟨fun p hp => hh p hp ▸ o.there p hp, fun p hp => lt_of_lt_of_le (o.known p hp) a, ?_⟩, hh⟩
  intro x hx q hq
  rcases d x hx with h | h
  · exact o.apart x h.2 q hq
  · intro hP
    have := o.known q hP
    have := (h q hq).1
    omega

theorem put_there {P : ℕ → Prop} (h : ℕ → Option (Card V C)) (i : ℕ) (e : El V C) (hp : ∀ p, P p → ∃ e, h p = some (.elem e)) :
    ∀ p, P p → ∃ e', put h i (some (.elem e)) p = some (.elem e') := by
  intro p hP
  by_cases hi : p = i
  · exact ⟨e, by rw [hi, put_same]⟩
  · rw [put_other _ _ hi]; exact hp p hP

/-- one command: it is defined, and each element is as expected -/
theorem op_good {P : ℕ → Prop} (s : St V C) (g : Good P s) (o : Op V) (ho : o.Within P) :
    ∃ s', s.op o = .ok s' ∧ Good P s' ∧ ∀ p c, P p → s.heap p = some (.elem c) →
      s'.heap p = some (.elem (track p (c, bottom p s.stack) o).1) ∧ bottom p s'.stack = (track p (c, bottom p s.stack) o).2 := by
  cases o with
  | fault i v =>
    obtain ⟨e, he⟩ := g.own.there i ho
    refine ⟨{ s.uninit with heap := put s.heap i (some (.elem ⟨v, none⟩)), stack := (i, e) :: s.stack }, ?_, ?_, ?_⟩
    · simp only [St.op, St.fault, he]
    · refine ⟨⟨g.wf.tmpl, g.wf.parts⟩, ⟨put_there _ _ _ g.own.there, g.own.known, g.own.apart⟩, ?_⟩
      intro x hx
      rcases List.mem_cons.mp hx with rfl | hx
      · exact ho
      · exact g.stack x hx
    · intro p c hp hc
      simp only [track, bottom]
      by_cases hi : i = p
      · subst hi
        rw [hc] at he
        have : c = e := by injection he with h; injection h
        simp [put_same, this]
      · simp [hi, put_other _ _ (Ne.symm hi), hc]
  | modify i v =>
    obtain ⟨e, he⟩ := g.own.there i ho
    refine ⟨{ s.uninit with heap := put s.heap i (some (.elem ⟨v, none⟩)) }, ?_, ?_, ?_⟩
    · simp only [St.op, St.modify, he]
    · exact ⟨⟨g.wf.tmpl, g.wf.parts⟩, ⟨put_there _ _ _ g.own.there, g.own.known, g.own.apart⟩, g.stack⟩
    · intro p c hp hc
      simp only [track]
      by_cases hi : i = p
      · subst hi
        simp [put_same, St.uninit]
      · simp [hi, put_other _ _ (Ne.symm hi), hc, St.uninit]
  | run =>
    obtain ⟨a, b⟩ := own_run s g.wf g.own
    have hs : s.run.stack = s.stack := (run_spec s g.wf).2.1
    refine ⟨s.run, rfl, ⟨wf_run s g.wf, a, by rw [hs]; exact g.stack⟩, ?_⟩
    intro p c hp hc
    rw [b p hp, hs, hc]
    exact ⟨rfl, rfl⟩
  | unfault => exact absurd ho id
  | delete i => exact absurd ho id

theorem ops_good {P : ℕ → Prop} : ∀ (l : List (Op V)) (s : St V C), Good P s → (∀ o ∈ l, o.Within P) →
    ∃ s', s.ops l = .ok s' ∧ Good P s' ∧ ∀ p c, P p → s.heap p = some (.elem c) →
      s'.heap p = some (.elem (l.foldl (track p) (c, bottom p s.stack)).1) ∧ bottom p s'.stack = (l.foldl (track p) (c, bottom p s.stack)).2
  | [], s, g, _ => ⟨s, rfl, g, fun p c hp hc => ⟨hc, rfl⟩⟩
  | o :: l, s, g, h => by
    obtain ⟨s1, e1, g1, k1⟩ := op_good s g o (h o (by simp))
    obtain ⟨s2, e2, g2, k2⟩ := ops_good l s1 g1 (fun o' ho' => h o' (by simp [ho']))
    refine ⟨s2, ?_, g2, ?_⟩
    · rw [St.ops, e1]; exact e2
    · intro p c hp hc
      obtain ⟨a, b⟩ := k1 p c hp hc
      obtain ⟨a', b'⟩ := k2 p _ hp a
      rw [b] at a' b'
      exact ⟨a', b'⟩

theorem ops_append (l m : List (Op V)) : ∀ s : St V C, s.ops (l ++ m) = (s.ops l).bind fun s => s.ops m := by
  induction l with
  | nil => intro s; rfl
  | cons o l ih =>
    intro s
    rw [List.cons_append, St.ops, St.ops]
    cases s.op o with
    | ok a => exact ih a
    | undefined => rfl

/-- **C73**: after any faults, changes and analyses on elements of the circuit and of definitions, `unfault` is well defined and gives every
element faulted back as it was before its first fault, with everything attached, and leaves the others as they are; nothing is left on the
stack. -/
theorem unfault_restores {P : ℕ → Prop} (l : List (Op V)) (s : St V C) (w : Wf s) (o : Own P s) (h0 : s.stack = [])
    (h : ∀ x ∈ l, x.Within P) :
    ∃ s', s.ops (l ++ [.unfault]) = .ok s' ∧ s'.stack = [] ∧ ∀ p c, P p → s.heap p = some (.elem c) →
      s'.heap p = some (.elem ((l.foldl (track p) (c, none)).2.getD (l.foldl (track p) (c, none)).1)) := by
  obtain ⟨s1, e1, g1, k1⟩ := ops_good l s ⟨w, o, by rw [h0]; simp⟩ h
  have halive : ∀ x ∈ s1.stack, ∃ e, s1.heap x.1 = some (.elem e) := fun x hx => g1.own.there _ (g1.stack x hx)
  obtain ⟨h', e2, e3⟩ := unfault_spec s1.stack s1.heap halive
  refine ⟨{ s1.uninit with heap := h', stack := [] }, ?_, rfl, ?_⟩
  · rw [ops_append, e1]
    simp only [Res.bind, St.ops, St.op, St.unfault, e2]
  · intro p c hp hc
    obtain ⟨a, b⟩ := k1 p c hp hc
    rw [h0] at a b
    show h' p = _
    rw [e3 p, a, b]
    simp only [bottom]
    cases (l.foldl (track p) (c, none)).2 <;> rfl

theorem track_fault_only (p : ℕ) (c : El V C) : ∀ (l : List (Op V)) (x : El V C × Option (El V C)), (∀ o ∈ l, ∀ i v, o ≠ .modify i v) →
    (x.2 = some c ∨ x = (c, none)) → (l.foldl (track p) x).2 = some c ∨ l.foldl (track p) x = (c, none)
  | [], x, _, hx => hx
  | o :: l, x, h, hx => by
    rw [List.foldl_cons]
    refine track_fault_only p c l _ (fun o ho => h o (by simp [ho])) ?_
    cases o with
    | fault i v =>
      simp only [track]
      split
      · left
        rcases hx with hx | hx
        · simp [hx]
        · simp [hx]
      · exact hx
    | modify i v => exact absurd rfl (h _ (by simp) i v)
    | _ => exact hx

/-- **C73**: with faults and analyses only, the circuit and the definitions are the same as before. -/
theorem faults_leave_nothing {P : ℕ → Prop} (l : List (Op V)) (s : St V C) (w : Wf s) (o : Own P s) (h0 : s.stack = [])
    (h : ∀ x ∈ l, x.Within P) (hm : ∀ x ∈ l, ∀ i v, x ≠ .modify i v) :
    ∃ s', s.ops (l ++ [.unfault]) = .ok s' ∧ ∀ p, P p → s'.heap p = s.heap p := by
  obtain ⟨s', e, _, k⟩ := unfault_restores l s w o h0 h
  refine ⟨s', e, fun p hp => ?_⟩
  obtain ⟨c, hc⟩ := o.there p hp
  rw [k p c hp hc, hc]
  rcases track_fault_only p c l (c, none) hm (.inr rfl) with h1 | h1 <;> rw [h1] <;> rfl

/-- **C73**: what an analysis sees after a number of faults is the last value given for each element. -/
theorem run_sees_faults {P : ℕ → Prop} (fs : List (ℕ × V)) (s : St V C) (w : Wf s) (o : Own P s) (hs : ∀ x ∈ s.stack, P x.1)
    (h : ∀ x ∈ fs, P x.1) :
    ∃ s', s.ops (fs.map (fun x => .fault x.1 x.2) ++ [.run]) = .ok s' ∧ ∀ p, P p →
      s'.heap p = match fs.reverse.find? (fun x => x.1 = p) with | some x => some (.elem ⟨x.2, none⟩) | none => s.heap p := by
  obtain ⟨s', e, g, k⟩ := ops_good (P := P) (fs.map (fun x => Op.fault x.1 x.2) ++ [.run]) s ⟨w, o, hs⟩ (by
    intro x hx
    rcases List.mem_append.mp hx with hx | hx
    · obtain ⟨y, hy, rfl⟩ := List.mem_map.mp hx
      exact h y hy
    · rw [List.mem_singleton] at hx; subst hx; trivial)
  refine ⟨s', e, fun p hp => ?_⟩
  obtain ⟨c, hc⟩ := o.there p hp
  rw [(k p c hp hc).1, List.foldl_append, hc]
  have key : ∀ (fs : List (ℕ × V)) (x : El V C × Option (El V C)),
      ((fs.map (fun x => Op.fault x.1 x.2)).foldl (track p) x).1 = match fs.reverse.find? (fun x => x.1 = p) with | some y => ⟨y.2, none⟩ | none => x.1 := by
    intro fs
    induction fs using List.reverseRecOn with
    | nil => intro x; rfl
    | append_singleton fs f ih =>
      intro x
      rw [List.map_append, List.foldl_append, List.reverse_append]
      simp only [List.map_cons, List.map_nil, List.foldl_cons, List.foldl_nil, List.reverse_cons, List.reverse_nil, List.nil_append,
        List.cons_append, List.find?_cons, track]
      by_cases hf : f.1 = p
      · simp [hf]
      · simp [hf, ih]
  simp only [List.foldl_cons, List.foldl_nil]
  rw [show ∀ x, track (V := V) (C := C) p x .run = x from fun _ => rfl, key]
  cases fs.reverse.find? (fun x => x.1 = p) <;> rfl

/-! ## where it goes wrong -/

/-- **C73, violated**: a part of an instance, found by its name once the circuit is expanded: the next analysis makes it anew from the
definition, so the change is not seen, and `unfault` writes to the card that is gone. -/
theorem instance_fault (s : St V C) (w : Wf s) (x : Inst) (hx : x ∈ s.insts) (p : ℕ) (hp : p ∈ x.parts) (e : El V C)
    (he : s.heap p = some (.elem e)) (v : V) (hd : ∀ x ∈ s.insts, ∀ t ∈ x.tmpl, ∀ y ∈ s.insts, t ∉ y.parts) :
    (∃ s', s.ops [.fault p v, .run] = .ok s' ∧ s'.heap p = none ∧ ∀ y ∈ s'.insts, y.parts.map s'.heap = y.tmpl.map s.heap) ∧
    (∃ s', s.ops [.modify p v, .run] = .ok s' ∧ s'.heap p = none ∧ ∀ y ∈ s'.insts, y.parts.map s'.heap = y.tmpl.map s.heap) ∧
    s.ops [.fault p v, .run, .unfault] = .undefined := by
  have key : ∀ (st : List (ℕ × El V C)), let s1 : St V C := { s.uninit with heap := put s.heap p (some (.elem ⟨v, none⟩)), stack := st }
      s1.run.heap p = none ∧ s1.run.stack = st ∧ ∀ y ∈ s1.run.insts, y.parts.map s1.run.heap = y.tmpl.map s.heap := by
    intro st s1
    have w1 : Wf s1 := ⟨w.tmpl, w.parts⟩
    obtain ⟨a, b, c, d, f⟩ := run_spec s1 w1
    refine ⟨?_, b, ?_⟩
    · rw [c p (w.parts x hx p hp)]
      exact if_pos ⟨rfl, x, hx, hp⟩
    · intro y hy
      have hr : s1.run = { s1.insts.foldl renew { s1 with insts := [] } with expanded := true } := rfl
      have := renewAll_copies s1.insts { s1 with insts := [] } w1.tmpl w1.parts hd y (by rw [hr] at hy; exact hy)
      rcases this with h | ⟨⟨z, hz, hzy⟩, h⟩
      · exact absurd h (List.not_mem_nil)
      · rw [hr]
        refine h.trans (List.map_congr_left fun t ht => ?_)
        have : t ≠ p := by
          rintro rfl
          exact hd z hz t (hzy ▸ ht) x hx hp
        exact put_other _ _ this
  refine ⟨?_, ?_, ?_⟩
  · obtain ⟨a, b, c⟩ := key ((p, e) :: s.stack)
    exact ⟨_, by simp only [St.ops, St.op, St.fault, he, Res.bind], a, c⟩
  · obtain ⟨a, b, c⟩ := key s.stack
    exact ⟨_, by simp only [St.ops, St.op, St.modify, he, Res.bind]; rfl, a, c⟩
  · obtain ⟨a, b, c⟩ := key ((p, e) :: s.stack)
    simp only [St.ops, St.op, St.fault, he, Res.bind, St.unfault]
    rw [b, unfaultFrom, a]

/-- **C73, violated**: an element deleted while faulted is written to by `unfault`. -/
theorem deleted_fault (s : St V C) (i : ℕ) (e : El V C) (he : s.heap i = some (.elem e)) (v : V) :
    s.ops [.fault i v, .delete i, .unfault] = .undefined := by
  simp only [St.ops, St.op, St.fault, he, Res.bind, St.delete, St.unfault, unfaultFrom, put_same]

/-- **C73, violated**: `modify` of anything but an element, and `fault` of a device with parts not yet expanded, takes it for an element. -/
theorem not_an_element (s : St V C) (i : ℕ) (v : V) :
    (∀ b, s.heap i = some (.compound b) → s.modify i v = .undefined) ∧ (s.heap i = some .other → s.modify i v = .undefined) ∧
    (s.heap i = some (.compound false) → s.fault i v = .undefined) :=
  ⟨fun b h => by simp only [St.modify, h], fun h => by simp only [St.modify, h], fun h => by simp only [St.fault, h]⟩

/-! ## sweep -/

/-- **C73**: a sweep of elements of the circuit that runs analyses leaves the circuit as it was. -/
theorem sweep_leaves_nothing {P : ℕ → Prop} (n : ℕ) (line : ℕ → List (ℕ × V)) (cmds : List (Op V)) (s : St V C) (w : Wf s) (o : Own P s)
    (h0 : s.stack = []) (hl : ∀ k, ∀ x ∈ line k, P x.1) (hc : ∀ x ∈ cmds, x.Within P) (hm : ∀ x ∈ cmds, ∀ i v, x ≠ .modify i v) :
    ∃ s', s.ops (sweep n line cmds) = .ok s' ∧ ∀ p, P p → s'.heap p = s.heap p := by
  unfold sweep
  refine faults_leave_nothing _ s w o h0 ?_ ?_
  · intro x hx
    obtain ⟨k, _, hk⟩ := List.mem_flatMap.mp hx
    rcases List.mem_append.mp hk with h | h
    · obtain ⟨y, hy, rfl⟩ := List.mem_map.mp h
      exact hl k y hy
    · exact hc x h
  · intro x hx i v
    obtain ⟨k, _, hk⟩ := List.mem_flatMap.mp hx
    rcases List.mem_append.mp hk with h | h
    · obtain ⟨y, hy, rfl⟩ := List.mem_map.mp h
      intro h; cases h
    · exact hm x h i v

/-- the number of times the commands are done, and the values: as many as asked for, evenly spaced from the first to the last -/
theorem sweep_values {F : Type} [Field F] [CharZero F] (n : ℕ) (hn : 2 ≤ n) (start last : F) :
    steps n + 1 = n ∧ sweepLin (steps n) 0 start (some last) = start ∧ sweepLin (steps n) (steps n) start (some last) = last ∧
    (∀ k, sweepLin (steps n) (k + 1) start (some last) - sweepLin (steps n) k start (some last) = (last - start) / ((n : F) - 1)) := by
  have hs : steps n = n - 1 := by unfold steps; rw [if_pos (by omega)]
  have h0 : steps n ≠ 0 := by omega
  have hc : ((steps n : ℕ) : F) = (n : F) - 1 := by rw [hs, Nat.cast_sub (by omega)]; simp
  have hz : ((steps n : ℕ) : F) ≠ 0 := by exact_mod_cast h0
  refine ⟨by omega, ?_, ?_, ?_⟩
  · simp [sweepLin, h0]
  · simp only [sweepLin, if_pos h0]; rw [div_self hz]; ring
  · intro k
    simp only [sweepLin, if_pos h0]
    rw [← hc]; push_cast; field_simp; ring

/-- **C73**: a sweep runs what it is to run as often as asked for (once at least), and the first and the last value are among those set. -/
theorem sweep_covers {F : Type} [Field F] [CharZero F] (n i : ℕ) (start last : F) (cmds : List (Op F)) (hc : .run ∈ cmds) :
    let runs (l : List (Op F)) : ℕ := l.countP fun o => match o with | .run => true | _ => false
    let l := sweep n (fun k => [(i, sweepLin (steps n) k start (some last))]) cmds
    runs l = max n 1 * runs cmds ∧ 0 < runs cmds ∧ .fault i start ∈ l ∧ (2 ≤ n → .fault i last ∈ l) := by
  have hs : steps n + 1 = max n 1 := by unfold steps; split <;> omega
  have hlin : ∀ m : ℕ, ((List.range m).flatMap fun k => [Op.fault i (sweepLin (steps n) k start (some last))] ++ cmds).countP (fun o => match o with | Op.run => true | _ => false)
      = m * cmds.countP (fun o => match o with | Op.run => true | _ => false) := by
    intro m
    induction m with
    | zero => simp
    | succ m ih => rw [List.range_succ, List.flatMap_append, List.countP_append, ih]; simp; ring
  refine ⟨?_, ?_, ?_, ?_⟩
  · simp only [sweep, List.map_cons, List.map_nil, List.countP_append, hlin, hs]
    simp
  · exact List.countP_pos_iff.mpr ⟨_, hc, rfl⟩
  · simp only [sweep, List.mem_append, List.mem_flatMap, List.mem_range]
    refine Or.inl ⟨0, by omega, Or.inl ?_⟩
    simp [sweepLin]
  · intro hn
    simp only [sweep, List.mem_append, List.mem_flatMap, List.mem_range]
    refine Or.inl ⟨steps n, by omega, Or.inl ?_⟩
    rw [(sweep_values n hn start last).2.2.1]
    simp

example : (Op.run : Op ℚ) ∈ [Op.modify 3 (1 : ℚ), .run] := by simp

/-- the same in proportion, for a log sweep between values of the same sign -/
theorem sweep_log (n : ℕ) (hn : 2 ≤ n) (start last : ℝ) (h : 0 < last / start) :
    sweepLog (steps n) 0 start (some last) = some start ∧ sweepLog (steps n) (steps n) start (some last) = some last ∧
    (∀ k, ∃ a b, sweepLog (steps n) k start (some last) = some a ∧ sweepLog (steps n) (k + 1) start (some last) = some b ∧
      b = a * (last / start) ^ (1 / ((n : ℝ) - 1))) := by
  have hs : steps n = n - 1 := by unfold steps; rw [if_pos (by omega)]
  have h0 : steps n ≠ 0 := by omega
  have hc : ((steps n : ℕ) : ℝ) = (n : ℝ) - 1 := by rw [hs, Nat.cast_sub (by omega)]; simp
  have hz : ((steps n : ℕ) : ℝ) ≠ 0 := by exact_mod_cast h0
  have hst : start ≠ 0 := by rintro rfl; simp at h
  refine ⟨?_, ?_, fun k => ?_⟩
  · simp [sweepLog, h0, hst]
  · simp only [sweepLog, if_pos h0, if_neg hst]; rw [div_self hz, Real.rpow_one, mul_div_cancel₀ _ hst]
  · refine ⟨start * (last / start) ^ ((k : ℝ) / (steps n : ℝ)), start * (last / start) ^ (((k + 1 : ℕ) : ℝ) / (steps n : ℝ)), by simp only [sweepLog, ne_eq, h0, not_false_eq_true, if_true, hst, if_false], by simp only [sweepLog, ne_eq, h0, not_false_eq_true, if_true, hst, if_false], ?_⟩
    rw [mul_assoc, ← Real.rpow_add h, ← hc]
    congr 2
    push_cast; field_simp

/-- a log sweep from zero fails, whatever the rest -/
theorem sweep_log_zero (n : ℕ) (hn : 2 ≤ n) (k : ℕ) (last : ℝ) : sweepLog (steps n) k 0 (some last) = none := by
  have : steps n ≠ 0 := by unfold steps; rw [if_pos (by omega)]; omega
  simp [sweepLog, this]

/-- **C73, partial**: the line of the command becomes a fault command with the same arguments, if the words replaced take at most 35
characters -/
theorem faultLine_partial (ind : ℕ) (buffer : List Char) (h1 : 6 ≤ ind) (h2 : ind ≤ 35) (hb : ∀ c ∈ buffer, c ≠ '\x00') :
    faultLine ind buffer = "fault".toList ++ List.replicate (ind - 5) ' ' ++ buffer.drop ind := by
  have e1 : ("fault".toList ++ List.replicate 30 ' ').take ind = "fault".toList ++ List.replicate (ind - 5) ' ' := by
    rw [List.take_append, List.take_replicate]
    have : "fault".toList.length = 5 := rfl
    rw [this, min_eq_left (by omega), List.take_of_length_le (by rw [this]; omega)]
  have e2 : ind - ("fault".toList ++ List.replicate 30 ' ').length = 0 := by
    have : ("fault".toList ++ List.replicate 30 ' ').length = 35 := rfl
    omega
  have e3 : (("fault".toList ++ List.replicate (ind - 5) ' ') ++ buffer.drop ind).set (ind - 1) ' ' =
      "fault".toList ++ List.replicate (ind - 5) ' ' ++ buffer.drop ind := by
    apply List.ext_getElem? 
    intro i
    rw [List.getElem?_set]
    split
    · rename_i hi
      subst hi
      have hl : ("fault".toList).length = 5 := rfl
      rw [List.append_assoc, List.getElem?_append_right (by rw [hl]; omega), hl, List.getElem?_append_left (by simp; omega)]
      rw [List.getElem?_replicate, if_pos (by rw [List.length_append, List.length_append, List.length_replicate, hl]; omega), if_pos (by omega)]
    · rfl
  unfold faultLine
  simp only [e1, e2, List.replicate_zero, List.append_nil, e3]
  have key : ∀ l : List Char, (∀ c ∈ l, decide (c ≠ '\x00') = true) → l.takeWhile (fun x => decide (x ≠ '\x00')) = l := by
    intro l hl
    have := List.takeWhile_append_of_pos (p := fun x : Char => decide (x ≠ '\x00')) (l₁ := l) (l₂ := []) hl
    simpa using this
  apply key
  intro c hc
  rw [List.mem_append, List.mem_append] at hc
  rcases hc with (hc | hc) | hc
  · have : ∀ c ∈ "fault".toList, decide (c ≠ '\x00') = true := by decide
    exact this c hc
  · rw [List.mem_replicate] at hc
    rw [hc.2]; decide
  · simpa using hb c (List.mem_of_mem_drop hc)

/-- **C73, violated**: longer than that nothing of the arguments is left: the sweep changes nothing. -/
theorem faultLine_long (ind : ℕ) (buffer : List Char) (h : 36 < ind) :
    faultLine ind buffer = "fault".toList ++ List.replicate 30 ' ' := by
  have hl : ("fault".toList ++ List.replicate 30 ' ').length = 35 := rfl
  unfold faultLine
  simp only [hl]
  rw [List.take_of_length_le (by rw [hl]; omega), List.append_assoc]
  obtain ⟨k, hk⟩ : ∃ k, ind - 35 = k + 2 := ⟨ind - 37, by omega⟩
  rw [hk, List.set_append_right _ _ (by rw [hl]; omega), hl, List.takeWhile_append_of_pos]
  · rw [show ind - 1 - 35 = k + 1 by omega, List.replicate_succ (n := k + 1), List.cons_append, List.set_cons_succ, List.takeWhile_cons]
    simp
  · decide

/-! ## examples -/

/-- a circuit with one element, a definition with one, and an instance of it -/
def ex : St ℚ String where
  heap := fun i => if i = 0 then some (.elem ⟨5, some "poly"⟩) else if i = 1 then some (.elem ⟨7, none⟩) else if i = 2 then some (.elem ⟨7, none⟩) else none
  next := 3
  insts := [⟨[1], [2]⟩]
  stack := []
  expanded := true

theorem ex_wf : Wf ex := ⟨by decide, by decide⟩
theorem ex_own : Own (fun p => p = 0 ∨ p = 1) ex :=
  ⟨by rintro p (rfl | rfl) <;> exact ⟨_, rfl⟩, by rintro p (rfl | rfl) <;> decide, by
    intro x hx p hp
    have : x = ⟨[1], [2]⟩ := by simpa [ex] using hx
    subst this
    simp at hp; subst hp; decide⟩

example : ∃ s', ex.ops (sweep 3 (fun k => [(0, sweepLin 2 k 1 (some 9)), (1, 4)]) [.run] ) = .ok s' ∧ ∀ p, p = 0 ∨ p = 1 → s'.heap p = ex.heap p :=
  sweep_leaves_nothing _ _ _ ex ex_wf ex_own rfl (by intro k x hx; simp at hx; rcases hx with rfl | rfl <;> simp) (by simp [Op.Within]) (by simp)

example : ex.ops [.fault 2 3, .run, .unfault] = .undefined :=
  (instance_fault ex ex_wf ⟨[1], [2]⟩ (by simp [ex]) 2 (by simp) ⟨7, none⟩ rfl 3 (by simp [ex])).2.2

end Gnucap.Fault
