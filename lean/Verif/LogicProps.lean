import Verif.LogicModel
import Mathlib.Tactic.Linarith
import Mathlib.Tactic.FieldSimp
import Mathlib.Tactic.Ring
import Mathlib.Data.List.Perm.Basic
import Mathlib.Data.Fintype.Basic
import Mathlib.Data.Fintype.Option

/-!
# Gates (C50) and digital nodes (C51)
-/
set_option linter.unusedSectionVars false
namespace Gnucap.Logic
open LV

instance : Fintype LV := ⟨⟨[s0, rising, falling, s1, unknown], by decide⟩, by intro x; cases x <;> decide⟩

/-! ## C50

The specification speaks about the value each input settles to: false, true or unknown. -/

/-- value a node settles to -/
def settled : LV → Option Bool
  | s0 => some false | falling => some false
  | s1 => some true | rising => some true
  | unknown => none

/-- conjunction with unknowns, stated on the set of inputs: false as soon as one is false, true only if all are true -/
def specAnd (l : List (Option Bool)) : Option Bool :=
  if some false ∈ l then some false else if none ∈ l then none else some true

/-- disjunction with unknowns -/
def specOr (l : List (Option Bool)) : Option Bool :=
  if some true ∈ l then some true else if none ∈ l then none else some false

/-- parity -/
def specXor (l : List (Option Bool)) : Option Bool :=
  if none ∈ l then none else some (l.count (some true) % 2 == 1)

/-- what a gate has to put out -/
def specGate : Gate → List (Option Bool) → Option Bool
  | .and, l => specAnd l
  | .nand, l => (specAnd l).map (!·)
  | .or, l => specOr l
  | .nor, l => (specOr l).map (!·)
  | .xor, l => specXor l
  | .xnor, l => (specXor l).map (!·)
  | .inv, l => match l with | a :: _ => a.map (!·) | [] => none

theorem settled_not (a : LV) : settled (notT a) = (settled a).map (!·) := by cases a <;> rfl

theorem settled_and (a b : LV) : settled (andT a b) = specAnd [settled a, settled b] := by revert a b; decide
theorem settled_or (a b : LV) : settled (orT a b) = specOr [settled a, settled b] := by revert a b; decide
theorem settled_xor (a b : LV) : settled (xorT a b) = specXor [settled a, settled b] := by revert a b; decide

theorem specAnd_step (a b : Option Bool) (l : List (Option Bool)) : specAnd (specAnd [a, b] :: l) = specAnd (a :: b :: l) := by
  unfold specAnd
  rcases a with _ | _ | _ <;> rcases b with _ | _ | _ <;> simp

theorem specOr_step (a b : Option Bool) (l : List (Option Bool)) : specOr (specOr [a, b] :: l) = specOr (a :: b :: l) := by
  unfold specOr
  rcases a with _ | _ | _ <;> rcases b with _ | _ | _ <;> simp

theorem specXor_step (a b : Option Bool) (l : List (Option Bool)) : specXor (specXor [a, b] :: l) = specXor (a :: b :: l) := by
  unfold specXor
  by_cases hn : none ∈ l
  · rcases a with _ | _ | _ <;> rcases b with _ | _ | _ <;> simp [hn]
  · rcases a with _ | _ | _ <;> rcases b with _ | _ | _ <;> simp [hn]
    omega

theorem settled_foldl (op : LV → LV → LV) (spec : List (Option Bool) → Option Bool) (h1 : ∀ a, spec [a] = a)
    (h2 : ∀ a b, settled (op a b) = spec [settled a, settled b])
    (h3 : ∀ a b l, spec (spec [a, b] :: l) = spec (a :: b :: l)) (a : LV) (r : List LV) :
    settled (r.foldl op a) = spec (settled a :: r.map settled) := by
  induction r generalizing a with
  | nil => exact (h1 _).symm
  | cons b r ih => rw [List.foldl_cons, ih, h2, h3]; rfl

theorem specAnd_one (a : Option Bool) : specAnd [a] = a := by revert a; decide
theorem specOr_one (a : Option Bool) : specOr [a] = a := by revert a; decide
theorem specXor_one (a : Option Bool) : specXor [a] = a := by revert a; decide

/-- **C50.** Any gate, any number of inputs, any values: the output settles to the Boolean function of what the inputs settle to;
unknown exactly when the other inputs do not decide. -/
theorem gate_settles (g : Gate) (a : LV) (r : List LV) :
    settled (logicEval g a r) = specGate g (settled a :: r.map settled) := by
  cases g <;> simp only [logicEval, specGate, settled_not,
    settled_foldl andT specAnd specAnd_one settled_and specAnd_step,
    settled_foldl orT specOr specOr_one settled_or specOr_step,
    settled_foldl xorT specXor specXor_one settled_xor specXor_step]

/-- the specification does not depend on the order of the inputs -/
theorem specGate_perm (g : Gate) (hg : g ≠ .inv) {l l' : List (Option Bool)} (h : l.Perm l') : specGate g l = specGate g l' := by
  cases g <;> first | exact absurd rfl hg | simp only [specGate, specAnd, specOr, specXor, h.mem_iff, h.count_eq]

/-- **C50, order.** Inputs in another order: the same settled output. -/
theorem gate_order (g : Gate) (hg : g ≠ .inv) (a a' : LV) (r r' : List LV) (h : (a :: r).Perm (a' :: r')) :
    settled (logicEval g a r) = settled (logicEval g a' r') := by
  rw [gate_settles, gate_settles]
  exact specGate_perm g hg (by simpa using h.map settled)

/-- a value that is not in transition -/
def still : LV → Bool
  | s0 => true | s1 => true | unknown => true | _ => false

theorem still_foldl (op : LV → LV → LV) (h : ∀ a b, still a = true → still b = true → still (op a b) = true) (a : LV) (r : List LV)
    (ha : still a = true) (hr : ∀ b ∈ r, still b = true) : still (r.foldl op a) = true := by
  induction r generalizing a with
  | nil => exact ha
  | cons b r ih => exact ih _ (h a b ha (hr b (by simp))) fun c hc => hr c (by simp [hc])

/-- **C50, no spontaneous change.** Inputs that do not change give an output that does not change. -/
theorem gate_still (g : Gate) (a : LV) (r : List LV) (ha : still a = true) (hr : ∀ b ∈ r, still b = true) :
    still (logicEval g a r) = true := by
  have hn : ∀ a, still (notT a) = still a := by intro a; cases a <;> rfl
  have h1 := still_foldl andT (by decide) a r ha hr
  have h2 := still_foldl orT (by decide) a r ha hr
  have h3 := still_foldl xorT (by decide) a r ha hr
  cases g <;> simp only [logicEval, hn, h1, h2, h3, ha]

/-- the two functions of `LOGICVAL` agree with the reading used here -/
theorem settled_is_future (a : LV) : settled a = lvFuture a := by cases a <;> rfl

example : settled (logicEval .nand s1 [rising, falling, unknown]) = some true ∧ settled (logicEval .xor s1 [rising, s1]) = some true ∧
    settled (logicEval .or s0 [unknown]) = none := by decide

/-! ### What the gate does with inputs that are on their way

In a transient analysis the gate takes the *old* bit of the evaluated table entry as its new value (d_logic.cc:636-649: "the value
without this contamination").  That is the Boolean function of the present input values only if the table's old bit is. -/

/-- present value of a node: the one before the pending event -/
def present : LV → Option Bool
  | s0 => some false | rising => some false
  | s1 => some true | falling => some true
  | unknown => none

theorem present_is_old (a : LV) : present a = lvOld a := by cases a <;> rfl

/-- **the property `present (gate) = gate (present)` is false**: one input rising and one falling (present 0 and 1, settled 1 and
0) makes an AND gate announce a 1, an OR gate (present 1, settled 1) a 0; so do two edges at an XOR gate. -/
theorem gate_present_wrong :
    present (logicEval .and rising [falling]) = some true ∧ specGate .and [present rising, present falling] = some false ∧
    present (logicEval .or rising [falling]) = some false ∧ specGate .or [present rising, present falling] = some true ∧
    present (logicEval .xor rising [rising]) = some true ∧ specGate .xor [present rising, present rising] = some false := by decide

/-- with edges in one direction only it holds for AND and OR, any number of inputs -/
theorem gate_present_partial (g : Gate) (hg : g = .and ∨ g = .or ∨ g = .nand ∨ g = .nor) (a : LV) (r : List LV)
    (hu : ∀ b ∈ a :: r, b ≠ unknown) (he : (∀ b ∈ a :: r, b ≠ rising) ∨ (∀ b ∈ a :: r, b ≠ falling)) :
    present (logicEval g a r) = specGate g (present a :: r.map present) := by
  have hn : ∀ a, present (notT a) = (present a).map (!·) := by intro a; cases a <;> rfl
  have key : ∀ (op : LV → LV → LV) (spec : List (Option Bool) → Option Bool) (_ : ∀ a, spec [a] = a)
      (_ : ∀ a b l, spec (spec [a, b] :: l) = spec (a :: b :: l)) (bad : LV)
      (_ : ∀ a b, a ≠ unknown → b ≠ unknown → a ≠ bad → b ≠ bad →
        present (op a b) = spec [present a, present b] ∧ op a b ≠ unknown ∧ op a b ≠ bad)
      (a : LV) (r : List LV), (∀ b ∈ a :: r, b ≠ unknown) → (∀ b ∈ a :: r, b ≠ bad) →
      present (r.foldl op a) = spec (present a :: r.map present) := by
    intro op spec h1 h3 bad h2 a r hu hb
    induction r generalizing a with
    | nil => exact (h1 _).symm
    | cons b r ih =>
      obtain ⟨e1, e2, e3⟩ := h2 a b (hu a (by simp)) (hu b (by simp)) (hb a (by simp)) (hb b (by simp))
      rw [List.foldl_cons, ih (op a b), e1, h3]
      · rfl
      · intro c hc
        rcases List.mem_cons.mp hc with rfl | hc
        · exact e2
        · exact hu c (by simp [hc])
      · intro c hc
        rcases List.mem_cons.mp hc with rfl | hc
        · exact e3
        · exact hb c (by simp [hc])
  have hand : present (r.foldl andT a) = specAnd (present a :: r.map present) := by
    rcases he with he | he
    · exact key andT specAnd specAnd_one specAnd_step rising (by decide) a r hu he
    · exact key andT specAnd specAnd_one specAnd_step falling (by decide) a r hu he
  have hor : present (r.foldl orT a) = specOr (present a :: r.map present) := by
    rcases he with he | he
    · exact key orT specOr specOr_one specOr_step rising (by decide) a r hu he
    · exact key orT specOr specOr_one specOr_step falling (by decide) a r hu he
  rcases hg with rfl | rfl | rfl | rfl <;> simp only [logicEval, specGate, hn, hand, hor]

variable {F : Type _} [Field F] [LinearOrder F] [IsStrictOrderedRing F]

/-- **the spurious event.** AND gate at rest with output 0, one input (value 0) scheduled to rise, the other (value 1) scheduled to
fall: neither the present nor the settled inputs make it 1, but an event to 1 is scheduled. -/
theorem and_gate_spurious_event (now ft last : F) :
    (⟨s0, s0, none, last, last⟩ : Node F).accept now ft true (logicEval .and rising [falling]) =
      some ⟨rising, rising, some ft, now, now⟩ := rfl

/-- **C50 at the gate.** All inputs at rest and known: after an evaluated accept the output's future value is the Boolean function of
the inputs, whatever it was before. -/
theorem gate_accept_future (g : Gate) (a : LV) (r : List LV) (ha : still a = true) (hr : ∀ b ∈ r, still b = true)
    (hk : logicEval g a r ≠ unknown) (now ft : F) (n : Node F) :
    ∃ n', n.accept now ft true (logicEval g a r) = some n' ∧ settled n'.lv = specGate g (settled a :: r.map settled) := by
  have hst := gate_still g a r ha hr
  have hset := gate_settles g a r
  generalize logicEval g a r = fs at hst hk hset
  unfold Node.accept
  rw [if_pos rfl]
  by_cases he : fs = n.lv
  · rw [if_pos he]
    exact ⟨_, rfl, by rw [← hset, he]; rfl⟩
  · rw [if_neg he]
    have hcases : fs = s0 ∨ fs = s1 := by
      cases fs <;> first | exact Or.inl rfl | exact Or.inr rfl | exact absurd rfl hk | exact absurd hst (by decide)
    rcases hcases with rfl | rfl
    · simp only [uncontaminated]
      by_cases hc : n.lv = unknown ∨ lvFuture s0 ≠ lvFuture n.lv
      · rw [if_pos hc, ← hset]
        unfold Node.setEvent
        have hp : propT n.lv s0 ≠ unknown ∧ settled (propT n.lv s0) = settled s0 := by cases n.lv <;> decide
        rw [if_neg hp.1]
        exact ⟨_, rfl, hp.2⟩
      · rw [if_neg hc]
        refine ⟨_, rfl, ?_⟩
        rw [← hset]
        have h2 : lvFuture s0 = lvFuture n.lv := by
          by_contra hh; exact hc (Or.inr hh)
        show settled n.lv = _
        rw [settled_is_future, ← h2]; rfl
    · simp only [uncontaminated]
      by_cases hc : n.lv = unknown ∨ lvFuture s1 ≠ lvFuture n.lv
      · rw [if_pos hc, ← hset]
        unfold Node.setEvent
        have hp : propT n.lv s1 ≠ unknown ∧ settled (propT n.lv s1) = settled s1 := by cases n.lv <;> decide
        rw [if_neg hp.1]
        exact ⟨_, rfl, hp.2⟩
      · rw [if_neg hc]
        refine ⟨_, rfl, ?_⟩
        rw [← hset]
        have h2 : lvFuture s1 = lvFuture n.lv := by
          by_contra hh; exact hc (Or.inr hh)
        show settled n.lv = _
        rw [settled_is_future, ← h2]; rfl

/-! ## C51 -/

/-- A time step: tried at `t`, then (each rejected) at the times of `more`, the last one accepted with the gate's decision. -/
structure Step (F : Type _) where
  t : F
  more : List F
  ft : F
  eval : Bool
  fs : LV

/-- time at which a step is accepted -/
def Step.time (s : Step F) : F := s.more.getLastD s.t

/-- the node through the tries of one step -/
def tries (s : Step F) (n : Node F) : Node F := s.more.foldl (fun n t => n.regress t) (n.advance s.t)

/-- the node through one step -/
def step (s : Step F) (n : Node F) : Option (Node F) := (tries s n).accept s.time s.ft s.eval s.fs

/-- what holds of a node after an accepted step at `now`: nothing to undo, and what is pending lies in the future -/
structure Accepted (now : F) (n : Node F) : Prop where
  lv : n.oldLv = n.lv
  last : n.oldLastchange = n.lastchange
  past : n.lastchange ≤ now
  future : ∀ ft, n.finalTime = some ft → now < ft

/-- tries of a step from `now`: all later than `now`, each earlier than the one before, none beyond the pending event (that is the
time step control's duty, C17) -/
structure Legal (now : F) (n : Node F) (s : Step F) : Prop where
  dec : (s.t :: s.more).Pairwise (· > ·)
  later : ∀ t ∈ s.t :: s.more, now < t
  noOver : ∀ ft, n.finalTime = some ft → s.t ≤ ft

theorem regress_idle (now : F) (n : Node F) (h : Accepted now n) (t : F) (ht : now < t) (hft : ∀ ft, n.finalTime = some ft → t < ft) :
    n.regress t = n := by
  unfold Node.regress
  rw [if_neg (not_lt.mpr (h.past.trans ht.le))]
  cases he : n.finalTime with
  | none => rfl
  | some ft => simp only; rw [if_neg (not_le.mpr (hft ft he))]

theorem regress_idle_all (now : F) (n : Node F) (h : Accepted now n) (ts : List F) (ht : ∀ t ∈ ts, now < t ∧ ∀ ft, n.finalTime = some ft → t < ft) :
    ts.foldl (fun n t => n.regress t) n = n := by
  induction ts with
  | nil => rfl
  | cons t ts ih =>
    rw [List.foldl_cons, regress_idle now n h t (ht t (by simp)).1 (ht t (by simp)).2]
    exact ih fun u hu => ht u (by simp [hu])

/-- **C51, rejected steps (partial: no try lies beyond the pending event).** However often a step is retried, the node ends as if the
accepted time had been tried at once: a rejected step leaves no trace. -/
theorem rejected_restores_partial (now : F) (n : Node F) (h : Accepted now n) (s : Step F) (hs : Legal now n s) :
    tries s n = n.advance s.time := by
  unfold tries
  cases hm : s.more with
  | nil => simp [Step.time, hm]
  | cons t2 rest =>
    have hdec := hs.dec
    rw [hm] at hdec
    have hlt : ∀ t ∈ t2 :: rest, t < s.t := fun t ht => List.rel_of_pairwise_cons hdec ht
    have hlater : ∀ t ∈ t2 :: rest, now < t := fun t ht => hs.later t (by rw [hm]; exact List.mem_cons_of_mem _ ht)
    have hfut : ∀ t ∈ t2 :: rest, ∀ ft, n.finalTime = some ft → t < ft := fun t ht ft he => (hlt t ht).trans_le (hs.noOver ft he)
    have htime : s.time ∈ t2 :: rest := by
      unfold Step.time
      rw [hm, List.getLastD_cons]
      exact List.getLastD_mem_cons
    have hend : n.advance s.time = n := by
      unfold Node.advance
      cases he : n.finalTime with
      | none => rfl
      | some ft => simp only; rw [if_neg (not_le.mpr (hfut _ htime ft he))]
    rw [hend]
    have hidle : (t2 :: rest).foldl (fun n t => n.regress t) n = n :=
      regress_idle_all now n h _ fun t ht => ⟨hlater t ht, hfut t ht⟩
    cases he : n.finalTime with
    | none =>
      have : n.advance s.t = n := by unfold Node.advance; rw [he]
      rw [this, hidle]
    | some ft =>
      by_cases hft : ft ≤ s.t
      · have hteq : s.t = ft := le_antisymm (hs.noOver ft he) hft
        have ha : n.advance s.t = n.propagate s.t := by
          unfold Node.advance; rw [he]; simp only; rw [if_pos hft]
        rw [ha, List.foldl_cons]
        have hun : (n.propagate s.t).regress t2 = n := by
          unfold Node.regress
          rw [if_pos (by show t2 < s.t; exact hlt t2 (by simp))]
          obtain ⟨lv, olv, fin, last, olast⟩ := n
          have h1 := h.lv; have h2 := h.last
          simp only at h1 h2 he
          subst h1; subst h2; subst he
          simp [Node.propagate, Node.unpropagate, hteq]
        rw [hun]
        exact regress_idle_all now n h _ fun t ht => ⟨hlater t (by simp [ht]), hfut t (by simp [ht])⟩
      · have : n.advance s.t = n := by unfold Node.advance; rw [he]; simp only; rw [if_neg hft]
        rw [this, hidle]

/-- **C51 fails if a try overshoots the event**: the event is moved to the rejected time, and the node is still waiting at an accepted
time that lies past its event. -/
theorem overshoot_delays_event : ∃ (n : Node ℚ) (s : Step ℚ), Accepted 0 n ∧ n.finalTime = some 10 ∧ s.time = 11 ∧
    (tries s n).lv = rising ∧ (tries s n).finalTime = some 12 ∧ (n.advance s.time).lv = s1 := by
  refine ⟨⟨rising, rising, some 10, 0, 0⟩, ⟨12, [11], 0, false, s0⟩, ⟨rfl, rfl, le_refl _, ?_⟩, rfl, rfl, ?_, ?_, ?_⟩
  · intro ft h; cases h; norm_num
  all_goals decide +kernel

theorem accept_accepted (t ft : F) (eval : Bool) (fs : LV) (n n' : Node F) (hp : n.lastchange ≤ t) (hf : ∀ f, n.finalTime = some f → t < f)
    (hft : t < ft) (h : n.accept t ft eval fs = some n') : Accepted t n' := by
  have hstore : Accepted t n.store := ⟨rfl, rfl, hp, hf⟩
  unfold Node.accept at h
  split at h
  · split at h
    · cases h; exact hstore
    · have hev : ∀ v, (n.setEvent t ft v).map Node.store = some n' → Accepted t n' := by
        intro v hv
        unfold Node.setEvent at hv
        by_cases hc : propT n.lv v = unknown
        · simp [hc] at hv
        · simp only [hc, if_false, Option.map_some, Option.some.injEq] at hv
          subst hv
          refine ⟨rfl, rfl, le_refl _, ?_⟩
          intro f hh
          have : some ft = some f := hh
          cases this; exact hft
      generalize uncontaminated fs = v at h
      cases v <;> simp only at h
      case unknown => cases h
      all_goals
        split at h
        · exact hev _ h
        · simp only [Option.some.injEq] at h; subst h; exact hstore
  · cases h; exact hstore

theorem advance_spec (now t : F) (n : Node F) (h : Accepted now n) (ht : now ≤ t) :
    (n.advance t).lastchange ≤ t ∧ ∀ f, (n.advance t).finalTime = some f → t < f := by
  unfold Node.advance
  cases he : n.finalTime with
  | none => exact ⟨h.past.trans ht, fun f hf => by simp [he] at hf⟩
  | some ft =>
    simp only
    split
    · exact ⟨le_refl _, fun f hf => by simp [Node.propagate] at hf⟩
    · rename_i hlt
      exact ⟨h.past.trans ht, fun f hf => by rw [he] at hf; cases hf; exact not_le.mp hlt⟩

/-- **C51, invariant.** Legal steps keep a node in order. -/
theorem step_accepted (now : F) (n : Node F) (h : Accepted now n) (s : Step F) (hs : Legal now n s) (hft : s.time < s.ft) (n' : Node F)
    (he : step s n = some n') : now < s.time ∧ Accepted s.time n' := by
  have hnow : now < s.time := by
    unfold Step.time
    exact hs.later _ List.getLastD_mem_cons
  unfold step at he
  rw [rejected_restores_partial now n h s hs] at he
  obtain ⟨h1, h2⟩ := advance_spec now s.time n h hnow.le
  exact ⟨hnow, accept_accepted _ _ _ _ _ _ h1 h2 hft he⟩

/-- a run of steps in which the gate schedules nothing (its inputs do not change) -/
inductive Quiet : F → Node F → F → Node F → Prop
  | refl (now n) : Quiet now n now n
  | step (now n s n1 t' n') (hs : Legal now n s) (hq : s.eval = false) (he : step s n = some n1) (rest : Quiet s.time n1 t' n') : Quiet now n t' n'

/-- **C51, the event (partial as above).** An event to `v` scheduled at `t0` for `ft`: through any number of steps, rejected tries and
all, the node is on its way until `ft` and has the value `v` from `ft` on. -/
theorem event_on_time_partial (t0 ft : F) (hft : t0 < ft) (b : Bool) (n0 n : Node F)
    (he : n0.setEvent t0 ft (if b then s1 else s0) = some n) (t : F) (n' : Node F) (hq : Quiet t0 n.store t n') :
    (t < ft → n'.finalTime = some ft ∧ settled n'.lv = some b) ∧ (ft ≤ t → n'.lv = if b then s1 else s0) := by
  -- invariant carried along the run
  have key : ∀ now m t n', Quiet now m t n' → Accepted now m →
      ((now < ft ∧ m.finalTime = some ft ∧ settled m.lv = some b) ∨ (ft ≤ now ∧ m.finalTime = none ∧ m.lv = if b then s1 else s0)) →
      ((t < ft ∧ n'.finalTime = some ft ∧ settled n'.lv = some b) ∨ (ft ≤ t ∧ n'.finalTime = none ∧ n'.lv = if b then s1 else s0)) := by
    intro now m t n' hq
    induction hq with
    | refl now n => intro _ h; exact h
    | step now m s n1 t' n' hs hqu he rest ih =>
      intro hacc hinv
      have hstep : n1 = (m.advance s.time).store := by
        unfold step at he
        rw [rejected_restores_partial now m hacc s hs] at he
        unfold Node.accept at he
        rw [hqu] at he
        simpa using he.symm
      have hnow : now < s.time := by
        unfold Step.time
        exact hs.later _ List.getLastD_mem_cons
      have hacc1 : Accepted s.time n1 := by
        obtain ⟨h1, h2⟩ := advance_spec now s.time m hacc hnow.le
        rw [hstep]
        exact ⟨rfl, rfl, h1, h2⟩
      refine ih hacc1 ?_
      rcases hinv with ⟨h1, h2, h3⟩ | ⟨h1, h2, h3⟩
      · by_cases hc : ft ≤ s.time
        · right
          have : m.advance s.time = m.propagate s.time := by
            unfold Node.advance; rw [h2]; simp only; rw [if_pos hc]
          rw [hstep, this]
          refine ⟨hc, rfl, ?_⟩
          show (match m.lv with | rising => s1 | falling => s0 | x => x) = _
          revert h3
          cases m.lv <;> cases b <;> simp [settled]
        · left
          have : m.advance s.time = m := by
            unfold Node.advance; rw [h2]; simp only; rw [if_neg hc]
          rw [hstep, this]
          exact ⟨not_le.mp hc, h2, h3⟩
      · right
        have : m.advance s.time = m := by unfold Node.advance; rw [h2]
        rw [hstep, this]
        exact ⟨h1.trans hnow.le, h2, h3⟩
  have hn : n.finalTime = some ft ∧ n.lastchange = t0 ∧ settled n.lv = some b := by
    unfold Node.setEvent at he
    by_cases hc : propT n0.lv (if b then s1 else s0) = unknown
    · simp [hc] at he
    · simp only [hc, if_false, Option.some.injEq] at he
      subst he
      refine ⟨rfl, rfl, ?_⟩
      show settled (propT n0.lv _) = _
      cases n0.lv <;> cases b <;> rfl
  have := key t0 n.store t n' hq ⟨rfl, rfl, hn.2.1.le, fun f hf => by
      have : n.finalTime = some f := hf
      rw [hn.1] at this; cases this; exact hft⟩ (Or.inl ⟨hft, hn.1, hn.2.2⟩)
  rcases this with ⟨h1, h2, h3⟩ | ⟨h1, h2, h3⟩
  · exact ⟨fun _ => ⟨h2, h3⟩, fun h => absurd h (not_le.mpr h1)⟩
  · exact ⟨fun h => absurd h (not_lt.mpr h1), fun _ => h3⟩

/-- non-vacuity: a rise scheduled at 0 for 10; step to 10 rejected, accepted at 7, then 10. -/
example : ∃ n : Node ℚ, (⟨s0, s0, none, 0, 0⟩ : Node ℚ).setEvent 0 10 s1 = some n ∧
    Quiet 0 n.store 10 ⟨s1, s1, none, 10, 10⟩ := by
  refine ⟨⟨rising, s0, some 10, 0, 0⟩, rfl, ?_⟩
  refine Quiet.step 0 _ ⟨10, [7], 0, false, s0⟩ ⟨rising, rising, some 10, 0, 0⟩ 10 _ ⟨by decide +kernel, by decide +kernel, ?_⟩ rfl
    (by decide +kernel) ?_
  · intro ft h; cases h; exact le_refl _
  refine Quiet.step _ _ ⟨10, [], 0, false, s0⟩ ⟨s1, s1, none, 10, 10⟩ 10 _ ⟨by decide +kernel, by decide +kernel, ?_⟩ rfl (by decide +kernel) ?_
  · intro ft h; cases h; exact le_refl _
  exact Quiet.refl _ _

/-! ### conversions -/

/-- **C51, conversion (partial: families whose levels are thresholds apart when measured from 0 V).** A settled value put out as a voltage is read back as itself. -/
theorem analog_roundtrip_partial (m : Family F) (now vOld : F) (n : Node F) (lv0 : LV) (h1 : m.th1 ≤ m.vmax / m.range)
    (h0 : m.vmin / m.range ≤ m.th0) (hth : m.th0 < m.th1) (hlv : n.lv = s0 ∨ n.lv = s1) :
    toLogic m (toAnalog m now n) vOld lv0 = n.lv := by
  unfold toLogic toAnalog
  rcases hlv with h | h <;> rw [h]
  · simp only
    rw [if_neg (not_le.mpr (h0.trans_lt hth)), if_pos h0]
  · simp only
    rw [if_pos h1]

/-- the default family (5 V, 0 V, thresholds 1/4 and 3/4) is such a one; so is every family with `vmin = 0` and thresholds in [0,1] -/
theorem analog_roundtrip_default (vmax th1 th0 rise fall u now vOld : F) (hv : vmax ≠ 0) (h1 : th1 ≤ 1) (h0 : 0 ≤ th0) (hth : th0 < th1) (n : Node F)
    (lv0 : LV) (hlv : n.lv = s0 ∨ n.lv = s1) :
    toLogic ⟨vmax, 0, u, rise, fall, th1, th0⟩ (toAnalog ⟨vmax, 0, u, rise, fall, th1, th0⟩ now n) vOld lv0 = n.lv := by
  refine analog_roundtrip_partial _ now vOld n lv0 ?_ ?_ hth hlv
  · simp [Family.range, div_self hv, h1]
  · simp [Family.range, h0]

/-- **C51 fails for families with a lower level other than 0 V**: the voltage is scaled by the range but not shifted by `vmin`.  A logic
1 of a family between -1.8 V and -0.8 V is read as 0; with -5 V and 5 V a 1 is read as "rising". -/
theorem analog_roundtrip_wrong (now : ℚ) (n : Node ℚ) (h : n.lv = s1) :
    toLogic ⟨-8/10, -18/10, 0, 1, 1, 3/4, 1/4⟩ (toAnalog ⟨-8/10, -18/10, 0, 1, 1, 3/4, 1/4⟩ now n) 0 unknown = s0 ∧
    toLogic ⟨5, -5, 0, 1, 1, 3/4, 1/4⟩ (toAnalog ⟨5, -5, 0, 1, 1, 3/4, 1/4⟩ now n) 0 unknown = rising := by
  have e : ∀ m : Family ℚ, toAnalog m now n = m.vmax := fun m => by unfold toAnalog; rw [h]
  rw [e, e]
  decide +kernel

/-- the voltage stays between the two levels, and is at the new level when the event arrives -/
theorem analog_within (m : Family F) (now : F) (n : Node F) (hv : m.vmin ≤ m.vmax) (hr : 0 < m.rise) (hf : 0 < m.fall)
    (hlv : n.lv ≠ unknown) :
    m.vmin ≤ toAnalog m now n ∧ toAnalog m now n ≤ m.vmax ∧
      (∀ ft, n.finalTime = some ft → ft ≤ now → toAnalog m now n = if settled n.lv = some true then m.vmax else m.vmin) := by
  unfold toAnalog
  cases hl : n.lv with
  | s0 => exact ⟨le_refl _, hv, fun _ _ _ => by simp [settled]⟩
  | s1 => exact ⟨hv, le_refl _, fun _ _ _ => by simp [settled]⟩
  | unknown => exact absurd hl hlv
  | rising =>
    simp only
    cases hft : n.finalTime with
    | none => exact ⟨le_refl _, hv, fun ft h => by cases h⟩
    | some ft =>
      simp only
      split
      · refine ⟨le_refl _, hv, ?_⟩
        intro f h hle; cases h
        linarith
      · split
        · exact ⟨hv, le_refl _, fun _ _ _ => by simp [settled]⟩
        · rename_i h1 h2
          have hq : 0 ≤ (ft - now) / m.rise := div_nonneg (by linarith) hr.le
          have hq1 : (ft - now) / m.rise ≤ 1 := by rw [div_le_one hr]; linarith
          rw [mul_div_assoc]
          refine ⟨?_, ?_, fun f h hle => by cases h; exact absurd hle h2⟩
          · nlinarith
          · nlinarith
  | falling =>
    simp only
    cases hft : n.finalTime with
    | none => exact ⟨hv, le_refl _, fun ft h => by cases h⟩
    | some ft =>
      simp only
      split
      · refine ⟨hv, le_refl _, ?_⟩
        intro f h hle; cases h
        linarith
      · split
        · exact ⟨le_refl _, hv, fun _ _ _ => by simp [settled]⟩
        · rename_i h1 h2
          have hq : 0 ≤ (ft - now) / m.fall := div_nonneg (by linarith) hf.le
          have hq1 : (ft - now) / m.fall ≤ 1 := by rw [div_le_one hf]; linarith
          rw [mul_div_assoc]
          refine ⟨?_, ?_, fun f h hle => by cases h; exact absurd hle h2⟩
          · nlinarith
          · nlinarith

/-- (specification) the part of an edge of length `d` ending at `ft` that is still to come -/
def toGo (ft d now : F) : F := Max.max 0 (Min.min 1 ((ft - now) / d))

/-- **C51, edges**: between the levels the voltage moves along the straight line, from the old level one rise (fall) time before the
event to the new level at the event -/
theorem analog_edge (m : Family F) (now ft : F) (n : Node F) (hr : 0 < m.rise) (hf : 0 < m.fall) (hft : n.finalTime = some ft) :
    (n.lv = rising → toAnalog m now n = m.vmax - (m.vmax - m.vmin) * toGo ft m.rise now) ∧
    (n.lv = falling → toAnalog m now n = m.vmin + (m.vmax - m.vmin) * toGo ft m.fall now) := by
  have key : ∀ d : F, 0 < d → (now ≤ ft - d → toGo ft d now = 1) ∧ (ft ≤ now → toGo ft d now = 0) ∧
      (¬ now ≤ ft - d → ¬ ft ≤ now → toGo ft d now = (ft - now) / d) := by
    intro d hd
    unfold toGo
    refine ⟨fun h => ?_, fun h => ?_, fun h1 h2 => ?_⟩
    · rw [min_eq_left ((one_le_div hd).mpr (by linarith))]; exact max_eq_right zero_le_one
    · exact max_eq_left ((min_le_right _ _).trans (div_nonpos_of_nonpos_of_nonneg (by linarith) hd.le))
    · rw [min_eq_right ((div_le_one hd).mpr (by linarith))]; exact max_eq_right (div_nonneg (by linarith) hd.le)
  constructor
  · intro hl
    obtain ⟨k1, k2, k3⟩ := key m.rise hr
    unfold toAnalog
    rw [hl, hft]
    simp only
    split
    · rename_i h; rw [k1 h]; ring
    · rename_i h
      split
      · rename_i h'; rw [k2 h']; ring
      · rename_i h'; rw [k3 h h', mul_div_assoc]
  · intro hl
    obtain ⟨k1, k2, k3⟩ := key m.fall hf
    unfold toAnalog
    rw [hl, hft]
    simp only
    split
    · rename_i h; rw [k1 h]; ring
    · rename_i h
      split
      · rename_i h'; rw [k2 h']; ring
      · rename_i h'; rw [k3 h h', mul_div_assoc]; ring

end Gnucap.Logic
