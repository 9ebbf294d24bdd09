import Mathlib.Algebra.BigOperators.Group.Finset.Basic
import Mathlib.Algebra.BigOperators.Ring.Finset
import Mathlib.Algebra.BigOperators.Group.Finset.Piecewise
import Mathlib.Tactic.Ring
import Mathlib.Tactic.Linarith
import Mathlib.Tactic.FieldSimp
import Verif.SpiceWrapModel
import Verif.FtosProps

/-!
# Devices from Spice (properties)

A Spice device knows nodes by number and is told voltages and adds conductances and currents by number.  The specification is a seating `φ` of
these numbers in the circuit: 0 is ground, number `k+1` is what terminal `k` is connected to, every other number has a node of its own.  The
device must read at number `r` the voltage of `φ r`, and a stamp at `(r, c)` must reach row `φ r`, column `φ c` of the circuit, once.
-/
namespace Gnucap.SpiceWrap
open Gnucap.Integ

/-! ## specification -/

/-- the slot a step of `DEVsetup` writes -/
def SetupOp.target : SetupOp → ℕ
  | .mk ii => ii
  | .join ii _ => ii

def SetupOp.isMk : SetupOp → Bool
  | .mk _ => true
  | .join _ _ => false

/-- a device that leaves its terminals alone, joins slots to terminals only, has room for its own nodes, and does something about every
terminal told to float -/
structure Proper (s : Shape) (ops : List SetupOp) : Prop where
  le1 : s.net ≤ s.max
  le2 : s.max ≤ s.mat
  dis : s.un = .disallow → s.net = s.max
  tgt : ∀ op ∈ ops, start s ≤ op.target ∧ op.target < s.mat
  src : ∀ ii jj, SetupOp.join ii jj ∈ ops → jj < start s
  room : s.max + ops.countP SetupOp.isMk ≤ s.mat
  floats : s.un = .float → ∀ ii, s.net ≤ ii → ii < s.max → ∃ op ∈ ops, op.target = ii

/-- a number some slot has -/
def InUse (s : Shape) (node : ℕ → ℤ) (r : ℤ) : Prop := r ≠ 0 ∧ ∃ ii < s.mat, node ii = r

/-- the seating of the numbers -/
structure Seats (s : Shape) (ext : ℕ → Option ℕ) (node : ℕ → ℤ) (φ : ℤ → Circ) : Prop where
  zero : φ 0 = .gnd
  term : ∀ ii < s.net, node ii = (ii : ℤ) + 1 ∧ φ ((ii : ℤ) + 1) = .ofExt (ext ii)
  ground : s.un = .ground → ∀ ii, s.net ≤ ii → ii < s.max → φ ((ii : ℤ) + 1) = .gnd
  own : ∀ r, InUse s node r → (s.max : ℤ) < r → ∃ k, φ r = .inner k
  apart : ∀ r r', InUse s node r → InUse s node r' → (s.max : ℤ) < r → (s.max : ℤ) < r' → φ r = φ r' → r = r'

section
variable {F : Type _} [Field F]

/-- the stamps of a device at row `p`, column `q` -/
def Stamps.at (st : Stamps F) (φ : ℤ → Circ) (p q : Circ) : F :=
  ((st.mat.filter fun e => decide (φ e.1 = p) && decide (φ e.2.1 = q)).map (·.2.2)).sum

/-- the currents of a device into `p` -/
def Stamps.into (st : Stamps F) (φ : ℤ → Circ) (p : Circ) : F := ((st.rhs.filter fun e => decide (φ e.1 = p)).map (·.2)).sum

/-- a device stamps at ground and at its own numbers -/
def Stamps.Within (st : Stamps F) (s : Shape) (node : ℕ → ℤ) : Prop :=
  (∀ e ∈ st.mat, (e.1 = 0 ∨ InUse s node e.1) ∧ (e.2.1 = 0 ∨ InUse s node e.2.1)) ∧ ∀ e ∈ st.rhs, e.1 = 0 ∨ InUse s node e.1

/-- the circuit is `rest` and `mf` of this device -/
def Holds (φ : ℤ → Circ) (mf : F) (rest : Sys F) (st : Stamps F) (sys : Sys F) : Prop :=
  (∀ p q, p ≠ .gnd → q ≠ .gnd → sys.a p q = rest.a p q + mf * st.at φ p q) ∧ ∀ p, p ≠ .gnd → sys.b p = rest.b p + mf * st.into φ p

/-- sum of the stamps at a pair of numbers -/
def Stamps.sum2 (st : Stamps F) (r c : ℤ) : F := ((st.mat.filter fun e => decide (e.1 = r) && decide (e.2.1 = c)).map (·.2.2)).sum
def Stamps.sum1 (st : Stamps F) (r : ℤ) : F := ((st.rhs.filter fun e => decide (e.1 = r)).map (·.2)).sum

/-- the device remembers `st` as what is loaded -/
def Remembers (s : Shape) (node : ℕ → ℤ) (st : Stamps F) (d : Dev F) : Prop :=
  (∀ r c, InUse s node r → InUse s node c → d.m1 (r - 1) (c - 1) = st.sum2 r c) ∧ ∀ r, InUse s node r → d.i1 r = st.sum1 r

end

/-! ## the numbers -/

@[simp] theorem upd_same {ι α : Type _} [DecidableEq ι] (f : ι → α) (i : ι) (a : α) : upd f i a i = a := by simp [upd]
theorem upd_ne {ι α : Type _} [DecidableEq ι] (f : ι → α) {i k : ι} (a : α) (h : k ≠ i) : upd f i a k = f k := by simp [upd, h]

theorem start_le (s : Shape) (h1 : s.net ≤ s.max) : start s ≤ s.max ∧ s.net ≤ start s := by
  unfold start; split <;> omega

theorem before_low (s : Shape) (ii : ℕ) (h : ii < start s) : before s ii = (ii : ℤ) + 1 := by
  unfold start at h
  unfold before
  rcases hu : s.un <;> simp only [hu] at h ⊢ <;> (repeat' split) <;> omega

theorem before_high (s : Shape) (h1 : s.net ≤ s.max) (hd : s.un = .disallow → s.net = s.max) (ii : ℕ) (h : start s ≤ ii) :
    before s ii = 0 ∨ (before s ii = -1 ∧ s.un = .float ∧ s.net ≤ ii ∧ ii < s.max) := by
  unfold start at h
  unfold before
  rcases hu : s.un <;> simp only [hu] at h ⊢
  · rw [if_neg (by omega), if_neg (by omega)]; exact Or.inl rfl
  · by_cases h2 : ii < s.max
    · rw [if_neg (by omega), if_pos h2]; exact Or.inr ⟨rfl, trivial, h, h2⟩
    · rw [if_neg (by omega), if_neg h2]; exact Or.inl rfl
  · have := hd hu
    rw [if_neg (by omega), if_neg (by omega)]; exact Or.inl rfl

/-- what holds after any part of `DEVsetup` -/
structure Inv (s : Shape) (ops : List SetupOp) (n : Num) : Prop where
  low : ∀ ii < start s, n.node ii = (ii : ℤ) + 1
  high : ∀ ii, start s ≤ ii → n.node ii = before s ii ∨ (∃ jj < start s, n.node ii = (jj : ℤ) + 1) ∨
    ((s.max : ℤ) < n.node ii ∧ n.node ii ≤ n.top)
  uniq : ∀ ii jj, (s.max : ℤ) < n.node ii → n.node ii = n.node jj → ii = jj
  top : n.top = s.max + ops.countP SetupOp.isMk
  done : ∀ op ∈ ops, 0 < n.node op.target

theorem inv_setup (s : Shape) (ops : List SetupOp) (h1 : s.net ≤ s.max) (hd : s.un = .disallow → s.net = s.max)
    (tgt : ∀ op ∈ ops, start s ≤ op.target) (src : ∀ ii jj, SetupOp.join ii jj ∈ ops → jj < start s) : Inv s ops (setup s ops) := by
  induction ops using List.reverseRecOn with
  | nil =>
    have hs := start_le s h1
    refine ⟨fun ii h => before_low s ii h, fun ii _ => Or.inl rfl, ?_, by simp [setup], by simp⟩
    intro ii jj hi he
    exfalso
    simp only [setup, List.foldl_nil] at hi
    by_cases h : ii < start s
    · rw [before_low s ii h] at hi; omega
    · rcases before_high s h1 hd ii (by omega) with h' | h' <;> omega
  | append_singleton l op ih =>
    have hs := start_le s h1
    have I := ih (fun o ho => tgt o (by simp [ho])) (fun ii jj hj => src ii jj (by simp [hj]))
    have ht := tgt op (by simp)
    have e : setup s (l ++ [op]) = setupStep (setup s l) op := by simp [setup, List.foldl_append]
    rw [e]
    generalize setup s l = n at I
    have top' : n.top = s.max + l.countP SetupOp.isMk := I.top
    have bound : ∀ ii, n.node ii ≤ n.top := by
      intro ii
      by_cases h : ii < start s
      · rw [I.low ii h]; omega
      · rcases I.high ii (by omega) with h' | ⟨jj, hj, h'⟩ | h'
        · rcases before_high s h1 hd ii (by omega) with h'' | h'' <;> omega
        · omega
        · exact h'.2
    rcases op with i | ⟨i, j⟩
    · simp only [SetupOp.target] at ht
      refine ⟨?_, ?_, ?_, ?_, ?_⟩
      · intro ii h
        simp only [setupStep]
        rw [upd_ne _ _ (by omega)]
        exact I.low ii h
      · intro ii h
        simp only [setupStep]
        by_cases hi : ii = i
        · subst hi; rw [upd_same]; refine Or.inr (Or.inr ⟨by omega, by push_cast; omega⟩)
        · rw [upd_ne _ _ hi]
          rcases I.high ii h with h' | h' | h'
          · exact Or.inl h'
          · exact Or.inr (Or.inl h')
          · exact Or.inr (Or.inr ⟨h'.1, by push_cast; omega⟩)
      · intro ii jj h he
        simp only [setupStep] at h he
        by_cases hi : ii = i <;> by_cases hj : jj = i
        · omega
        · subst hi; rw [upd_same, upd_ne _ _ hj] at he; have := bound jj; omega
        · subst hj; rw [upd_same, upd_ne _ _ hi] at he; have := bound ii; omega
        · rw [upd_ne _ _ hi] at h he; rw [upd_ne _ _ hj] at he; exact I.uniq ii jj h he
      · simp only [setupStep, List.countP_append, List.countP_singleton, SetupOp.isMk]
        simp; omega
      · intro o ho
        simp only [setupStep]
        by_cases hi : o.target = i
        · rw [hi, upd_same]; omega
        · rw [upd_ne _ _ hi]
          rcases List.mem_append.1 ho with h | h
          · exact I.done o h
          · rw [List.mem_singleton.1 h] at hi; exact absurd rfl hi
    · simp only [SetupOp.target] at ht
      have hj := src i j (by simp)
      refine ⟨?_, ?_, ?_, ?_, ?_⟩
      · intro ii h
        simp only [setupStep]
        rw [upd_ne _ _ (by omega)]
        exact I.low ii h
      · intro ii h
        simp only [setupStep]
        by_cases hi : ii = i
        · subst hi; rw [upd_same]; exact Or.inr (Or.inl ⟨j, hj, I.low j hj⟩)
        · rw [upd_ne _ _ hi]; exact I.high ii h
      · intro ii jj h he
        simp only [setupStep] at h he
        by_cases hi : ii = i
        · subst hi; rw [upd_same, I.low j hj] at h; omega
        · rw [upd_ne _ _ hi] at h he
          by_cases hjj : jj = i
          · subst hjj; rw [upd_same, I.low j hj] at he; omega
          · rw [upd_ne _ _ hjj] at he; exact I.uniq ii jj h he
      · simp only [setupStep, List.countP_append, List.countP_singleton, SetupOp.isMk]
        simp; omega
      · intro o ho
        simp only [setupStep]
        by_cases hi : o.target = i
        · rw [hi, upd_same, I.low j hj]; omega
        · rw [upd_ne _ _ hi]
          rcases List.mem_append.1 ho with h | h
          · exact I.done o h
          · rw [List.mem_singleton.1 h] at hi; exact absurd rfl hi

/-- the seating the wrapper makes -/
def seat (s : Shape) (ext : ℕ → Option ℕ) (node : ℕ → ℤ) (r : ℤ) : Circ :=
  if r ≤ 0 then .gnd
  else if r ≤ start s then (base s ext (r - 1).toNat).getD .gnd
  else match (List.range s.mat).find? (fun ii => decide (node ii = r)) with
    | some ii => .inner ii
    | none => .gnd

/-- numbers inside, and every slot at the seat of its number -/
structure Wired (s : Shape) (wires : ℕ → Option Circ) (node : ℕ → ℤ) (φ : ℤ → Circ) : Prop where
  zero : φ 0 = .gnd
  ok : ∀ ii < s.mat, node ii ≠ 0 → inside s (node ii) ∧ wires ii = some (φ (node ii))

theorem wired (s : Shape) (ext : ℕ → Option ℕ) (ops : List SetupOp) (h : Proper s ops) :
    Wired s (wire s ext (setup s ops).node) (setup s ops).node (seat s ext (setup s ops).node) ∧
    Seats s ext (setup s ops).node (seat s ext (setup s ops).node) := by
  have I := inv_setup s ops h.le1 h.dis (fun o ho => (h.tgt o ho).1) h.src
  have hs := start_le s h.le1
  have hroom := h.room
  have h2 := h.le2
  have hfl := h.floats
  generalize setup s ops = n at I
  have hb : ∀ jj < start s, base s ext jj = some ((base s ext jj).getD .gnd) := by
    intro jj hj; unfold base; split <;> simp [*]
  have pick : ∀ ii < s.mat, (s.max : ℤ) < n.node ii → seat s ext n.node (n.node ii) = .inner ii := by
    intro ii hi hm
    unfold seat
    rw [if_neg (by omega), if_neg (by omega)]
    have : (List.range s.mat).find? (fun k => decide (n.node k = n.node ii)) = some ii := by
      rcases hf : (List.range s.mat).find? (fun k => decide (n.node k = n.node ii)) with _ | k
      · have := List.find?_eq_none.1 hf ii (List.mem_range.2 hi); simp at this
      · have := List.find?_some hf
        simp only [decide_eq_true_eq] at this
        exact congrArg some (I.uniq ii k hm this.symm).symm
    rw [this]
  have low : ∀ jj < start s, seat s ext n.node ((jj : ℤ) + 1) = (base s ext jj).getD .gnd := by
    intro jj hj
    unfold seat
    rw [if_neg (by omega), if_pos (by omega)]
    congr 2; omega
  refine ⟨⟨by simp [seat], ?_⟩, ⟨by simp [seat], ?_, ?_, ?_, ?_⟩⟩
  · intro ii hi hn
    by_cases hl : ii < start s
    · rw [I.low ii hl]
      refine ⟨⟨by omega, by omega⟩, ?_⟩
      unfold wire
      rw [if_pos hl, low ii hl]
      exact hb ii hl
    · rcases I.high ii (by omega) with h' | ⟨jj, hj, h'⟩ | h'
      · rcases before_high s h.le1 h.dis ii (by omega) with h'' | ⟨h'', hu, h3, h4⟩
        · omega
        · obtain ⟨o, ho, e⟩ := hfl hu ii h3 h4
          have := I.done o ho
          rw [e] at this; omega
      · rw [h']
        refine ⟨⟨by omega, by omega⟩, ?_⟩
        unfold wire
        rw [if_neg hl, if_neg (by omega), if_pos (by omega), low jj hj, h']
        have : ((jj : ℤ) + 1 - 1).toNat = jj := by omega
        rw [this]
        exact hb jj hj
      · refine ⟨⟨by omega, by have := I.top; omega⟩, ?_⟩
        unfold wire
        rw [if_neg hl, if_pos (by omega), pick ii hi h'.1]
  · intro ii hi
    refine ⟨I.low ii (by omega), ?_⟩
    rw [low ii (by omega)]
    unfold base; rw [if_pos hi]; rfl
  · intro hu ii h3 h4
    have : start s = s.max := by simp [start, hu]
    rw [low ii (by omega)]
    unfold base; rw [if_neg (by omega), if_pos (by omega)]; rfl
  · rintro r ⟨_, ii, hi, rfl⟩ hm
    exact ⟨ii, pick ii hi hm⟩
  · rintro r r' ⟨_, ii, hi, rfl⟩ ⟨_, jj, hj, rfl⟩ hm hm' he
    rw [pick ii hi hm, pick jj hj hm'] at he
    rw [Circ.inner.injEq] at he
    rw [he]

/-! ## what the device reads -/

section
variable {F : Type _} [Field F]

theorem copyIn_eq (s : Shape) (wires : ℕ → Option Circ) (node : ℕ → ℤ) (φ : ℤ → Circ) (h : Wired s wires node φ) (v : Circ → F)
    (l : List ℕ) (hl : ∀ ii ∈ l, ii < s.mat) (a : ℤ → F) :
    ∃ V, copyIn s wires node v l a = some V ∧ (∀ r, r ≠ 0 → (∃ ii ∈ l, node ii = r) → V r = v (φ r)) ∧
      ∀ r, (r = 0 ∨ ∀ ii ∈ l, node ii ≠ r) → V r = a r := by
  induction l generalizing a with
  | nil => exact ⟨a, rfl, by simp, by simp⟩
  | cons ii t ih =>
    by_cases h0 : node ii = 0
    · obtain ⟨V, e, h1, h2⟩ := ih (fun k hk => hl k (by simp [hk])) a
      refine ⟨V, by rw [copyIn, if_pos h0, e], ?_, ?_⟩
      · rintro r hr ⟨k, hk, er⟩
        rcases List.mem_cons.1 hk with rfl | hk
        · omega
        · exact h1 r hr ⟨k, hk, er⟩
      · intro r hr
        exact h2 r (hr.imp id fun g k hk => g k (by simp [hk]))
    · obtain ⟨hi, hw⟩ := h.ok ii (hl ii (by simp)) h0
      obtain ⟨V, e, h1, h2⟩ := ih (fun k hk => hl k (by simp [hk])) (upd a (node ii) (v (φ (node ii))))
      refine ⟨V, by rw [copyIn, if_neg h0, if_pos hi, hw]; exact e, ?_, ?_⟩
      · rintro r hr ⟨k, hk, er⟩
        by_cases hx : ∃ k ∈ t, node k = r
        · exact h1 r hr hx
        · rcases List.mem_cons.1 hk with rfl | hk
          · rw [h2 r (Or.inr fun k hk er => hx ⟨k, hk, er⟩), ← er, upd_same]
          · exact absurd ⟨k, hk, er⟩ hx
      · rintro r hr
        rw [h2 r (hr.imp id fun g k hk => g k (by simp [hk])), upd_ne]
        rcases hr with rfl | g
        · exact fun e => h0 e.symm
        · exact fun e => g ii (by simp) e.symm

theorem seen_eq (s : Shape) (wires : ℕ → Option Circ) (node : ℕ → ℤ) (φ : ℤ → Circ) (h : Wired s wires node φ) (v : Circ → F)
    (hv : v .gnd = 0) : ∃ V, seen s wires node v = some V ∧ ∀ r, r = 0 ∨ InUse s node r → V r = v (φ r) := by
  obtain ⟨V, e, h1, h2⟩ := copyIn_eq s wires node φ h v (List.range s.mat) (by simp) (fun _ => 0)
  refine ⟨V, e, ?_⟩
  rintro r (rfl | ⟨hr, ii, hi, e⟩)
  · rw [h2 0 (Or.inl rfl), h.zero, hv]
  · exact h1 r hr ⟨ii, by simpa using hi, e⟩

/-! ## what is loaded -/

theorem addPoint_a (x y p q : Circ) (d : F) (sys : Sys F) (hp : p ≠ .gnd) (hq : q ≠ .gnd) :
    (addPoint x y d sys).a p q = sys.a p q + if x = p ∧ y = q then d else 0 := by
  unfold addPoint
  by_cases hx : x = .gnd ∨ y = .gnd
  · rw [if_pos hx, if_neg, add_zero]
    rintro ⟨rfl, rfl⟩
    exact hx.elim hp hq
  · rw [if_neg hx]
    by_cases h1 : p = x
    · subst h1
      by_cases h2 : q = y
      · subst h2; simp
      · have h3 : ¬y = q := fun e => h2 e.symm
        simp [upd_ne _ _ h2, h3]
    · have h3 : ¬x = p := fun e => h1 e.symm
      simp [upd_ne _ _ h1, h3]

theorem addPoint_b (x y : Circ) (d : F) (sys : Sys F) : (addPoint x y d sys).b = sys.b := by
  unfold addPoint; split <;> rfl

theorem addSource_a (x : Circ) (d : F) (sys : Sys F) : (addSource x d sys).a = sys.a := by
  unfold addSource; split <;> rfl

theorem addSource_b (x p : Circ) (d : F) (sys : Sys F) (hp : p ≠ .gnd) : (addSource x d sys).b p = sys.b p + if x = p then d else 0 := by
  unfold addSource
  by_cases hx : x = .gnd
  · rw [if_pos hx, if_neg, add_zero]
    rintro rfl; exact hp hx
  · rw [if_neg hx]
    by_cases h1 : p = x
    · subst h1; simp
    · have h3 : ¬x = p := fun e => h1 e.symm
      simp [upd_ne _ _ h1, h3]

theorem cols_eq (s : Shape) (wires : ℕ → Option Circ) (node : ℕ → ℤ) (φ : ℤ → Circ) (h : Wired s wires node φ) (mf : F) (inc : Bool)
    (x : Circ) (ni : ℤ) (l : List ℕ) (hl : ∀ ii ∈ l, ii < s.mat) (jh : ℤ → ℤ) (d : Dev F) (sys : Sys F) :
    ∃ (C : List ℤ) (jh' : ℤ → ℤ) (d' : Dev F) (sys' : Sys F), cols s wires node mf inc x ni l jh d sys = some (jh', d', sys') ∧
      C.Nodup ∧ (∀ r, r ∈ C ↔ r ≠ 0 ∧ (∃ jj ∈ l, node jj = r) ∧ jh r ≠ ni) ∧ (∀ r, jh' r = if r ∈ C then ni else jh r) ∧
      d'.m0 = d.m0 ∧ d'.i0 = d.i0 ∧ d'.i1 = d.i1 ∧
      (∀ i j, d'.m1 i j = if i = ni - 1 ∧ j + 1 ∈ C then d.m0 i j else d.m1 i j) ∧ sys'.b = sys.b ∧
      ∀ p q, p ≠ .gnd → q ≠ .gnd → sys'.a p q = sys.a p q +
        (C.map fun r => if x = p ∧ φ r = q then amount mf inc (d.m0 (ni - 1) (r - 1)) (d.m1 (ni - 1) (r - 1)) else 0).sum := by
  induction l generalizing jh d sys with
  | nil => exact ⟨[], jh, d, sys, rfl, by simp, by simp, by simp, rfl, rfl, rfl, by simp, rfl, by simp⟩
  | cons jj t ih =>
    have hl' : ∀ ii ∈ t, ii < s.mat := fun k hk => hl k (by simp [hk])
    by_cases h0 : node jj = 0
    · obtain ⟨C, jh', d', sys', e, nd, mem, rest⟩ := ih hl' jh d sys
      refine ⟨C, jh', d', sys', by rw [cols, if_pos h0, e], nd, ?_, rest⟩
      intro r
      rw [mem]
      constructor
      · rintro ⟨a, ⟨k, hk, er⟩, b⟩; exact ⟨a, ⟨k, by simp [hk], er⟩, b⟩
      · rintro ⟨a, ⟨k, hk, er⟩, b⟩
        rcases List.mem_cons.1 hk with rfl | hk
        · omega
        · exact ⟨a, ⟨k, hk, er⟩, b⟩
    · obtain ⟨hi, hw⟩ := h.ok jj (hl jj (by simp)) h0
      by_cases hj : jh (node jj) ≠ ni
      · obtain ⟨C, jh', d', sys', e, nd, mem, j1, m0, i0, i1, m1, b1, a1⟩ := ih hl' (upd jh (node jj) ni)
          { d with m1 := upd d.m1 (ni - 1) (upd (d.m1 (ni - 1)) (node jj - 1) (d.m0 (ni - 1) (node jj - 1))) }
          (addPoint x (φ (node jj)) (amount mf inc (d.m0 (ni - 1) (node jj - 1)) (d.m1 (ni - 1) (node jj - 1))) sys)
        have hC : node jj ∉ C := by
          rw [mem]; rintro ⟨_, _, h⟩; exact h (by simp)
        refine ⟨node jj :: C, jh', d', sys', by rw [cols, if_neg h0, if_pos hi, if_pos hj, hw]; exact e,
          List.nodup_cons.2 ⟨hC, nd⟩, ?_, ?_, m0, i0, i1, ?_, by rw [b1, addPoint_b], ?_⟩
        · intro r
          rw [List.mem_cons, mem]
          constructor
          · rintro (rfl | ⟨a, ⟨k, hk, er⟩, b⟩)
            · exact ⟨h0, ⟨jj, by simp, rfl⟩, hj⟩
            · refine ⟨a, ⟨k, by simp [hk], er⟩, ?_⟩
              by_cases hr : r = node jj
              · rw [hr]; exact hj
              · rwa [upd_ne _ _ hr] at b
          · rintro ⟨a, ⟨k, hk, er⟩, b⟩
            by_cases hr : r = node jj
            · exact Or.inl hr
            · right
              refine ⟨a, ?_, by rwa [upd_ne _ _ hr]⟩
              rcases List.mem_cons.1 hk with rfl | hk
              · exact absurd er.symm hr
              · exact ⟨k, hk, er⟩
        · intro r
          rw [j1]
          by_cases hr : r = node jj
          · subst hr; simp
          · simp [hr, upd_ne _ _ hr]
        · intro i j
          rw [m1]
          simp only [List.mem_cons]
          by_cases hi' : i = ni - 1
          · subst hi'
            by_cases hj' : j + 1 = node jj
            · have : j = node jj - 1 := by omega
              subst this
              simp
            · have : j ≠ node jj - 1 := by omega
              simp [hj', upd_ne _ _ this]
          · simp [hi', upd_ne _ _ hi']
        · intro p q hp hq
          rw [a1 p q hp hq, addPoint_a _ _ _ _ _ _ hp hq, List.map_cons, List.sum_cons, add_assoc]
          congr 2
          refine congrArg List.sum (List.map_congr_left fun r hr => ?_)
          have hr' : r ≠ node jj := fun e => hC (e ▸ hr)
          have : r - 1 ≠ node jj - 1 := by omega
          simp [upd_ne _ _ this]
      · obtain ⟨C, jh', d', sys', e, nd, mem, rest⟩ := ih hl' jh d sys
        refine ⟨C, jh', d', sys', by rw [cols, if_neg h0, if_pos hi, if_neg hj, e], nd, ?_, rest⟩
        intro r
        rw [mem]
        constructor
        · rintro ⟨a, ⟨k, hk, er⟩, b⟩; exact ⟨a, ⟨k, by simp [hk], er⟩, b⟩
        · rintro ⟨a, ⟨k, hk, er⟩, b⟩
          rcases List.mem_cons.1 hk with rfl | hk
          · rw [← er] at b; exact absurd b hj
          · exact ⟨a, ⟨k, hk, er⟩, b⟩

/-- the numbers in use -/
def used (s : Shape) (node : ℕ → ℤ) : Finset ℤ := ((Finset.range s.mat).image node).erase 0

theorem mem_used (s : Shape) (node : ℕ → ℤ) (r : ℤ) : r ∈ used s node ↔ InUse s node r := by
  simp [used, InUse]

theorem rows_eq (s : Shape) (wires : ℕ → Option Circ) (node : ℕ → ℤ) (φ : ℤ → Circ) (h : Wired s wires node φ) (mf : F) (inc : Bool)
    (l : List ℕ) (hl : ∀ ii ∈ l, ii < s.mat) (ih : ℤ → Bool) (jh : ℤ → ℤ) (hjh : ∀ r, jh r = 0 ∨ ih (jh r) = true) (d : Dev F)
    (sys : Sys F) :
    ∃ (R : List ℤ) (d' : Dev F) (sys' : Sys F), rows s wires node mf inc l ih jh d sys = some (d', sys') ∧
      R.Nodup ∧ (∀ r, r ∈ R ↔ r ≠ 0 ∧ (∃ ii ∈ l, node ii = r) ∧ ih r = false) ∧ d'.m0 = d.m0 ∧ d'.i0 = d.i0 ∧
      (∀ r, d'.i1 r = if r ∈ R then d.i0 r else d.i1 r) ∧
      (∀ i j, d'.m1 i j = if i + 1 ∈ R ∧ j + 1 ∈ used s node then d.m0 i j else d.m1 i j) ∧
      (∀ p, p ≠ .gnd → sys'.b p = sys.b p + (R.map fun r => if φ r = p then amount mf inc (d.i0 r) (d.i1 r) else 0).sum) ∧
      ∀ p q, p ≠ .gnd → q ≠ .gnd → sys'.a p q = sys.a p q + (R.map fun r => ∑ c ∈ used s node,
        if φ r = p ∧ φ c = q then amount mf inc (d.m0 (r - 1) (c - 1)) (d.m1 (r - 1) (c - 1)) else 0).sum := by
  induction l generalizing ih jh d sys with
  | nil => exact ⟨[], d, sys, rfl, by simp, by simp, rfl, rfl, by simp, by simp, by simp, by simp⟩
  | cons ii t IH =>
    have hl' : ∀ ii ∈ t, ii < s.mat := fun k hk => hl k (by simp [hk])
    by_cases h0 : node ii = 0
    · obtain ⟨R, d', sys', e, nd, mem, rest⟩ := IH hl' ih jh hjh d sys
      refine ⟨R, d', sys', by rw [rows, if_pos h0, e], nd, ?_, rest⟩
      intro r
      rw [mem]
      constructor
      · rintro ⟨a, ⟨k, hk, er⟩, b⟩; exact ⟨a, ⟨k, by simp [hk], er⟩, b⟩
      · rintro ⟨a, ⟨k, hk, er⟩, b⟩
        rcases List.mem_cons.1 hk with rfl | hk
        · omega
        · exact ⟨a, ⟨k, hk, er⟩, b⟩
    · obtain ⟨hi, hw⟩ := h.ok ii (hl ii (by simp)) h0
      by_cases hj : ih (node ii) = false
      · obtain ⟨C, jh1, d1, sys1, e1, nd1, mem1, j1, m01, i01, i11, m11, b11, a11⟩ :=
          cols_eq s wires node φ h mf inc (φ (node ii)) (node ii) (List.range s.mat) (by simp) jh
            { d with i1 := upd d.i1 (node ii) (d.i0 (node ii)) }
            (addSource (φ (node ii)) (amount mf inc (d.i0 (node ii)) (d.i1 (node ii))) sys)
        have hne : ∀ r, jh r ≠ node ii := by
          intro r e
          rcases hjh r with h' | h'
          · omega
          · rw [e, hj] at h'; exact Bool.noConfusion h'
        have hC : ∀ r, r ∈ C ↔ r ∈ used s node := by
          intro r; rw [mem1, mem_used]
          simp [InUse, hne]
        have hCu : C.toFinset = used s node := by ext r; simp [hC]
        obtain ⟨R, d', sys', e, nd, mem, m0, i0, i1, m1, b1, a1⟩ := IH hl' (upd ih (node ii) true) jh1 (by
          intro r
          rw [j1]
          split
          · right; simp
          · rcases hjh r with h' | h'
            · exact Or.inl h'
            · right
              by_cases hr : jh r = node ii
              · rw [hr]; simp
              · rw [upd_ne _ _ hr]; exact h') d1 sys1
        have hR : node ii ∉ R := by
          rw [mem]; rintro ⟨_, _, h⟩; simp at h
        refine ⟨node ii :: R, d', sys', ?_, List.nodup_cons.2 ⟨hR, nd⟩, ?_, by rw [m0, m01], by rw [i0, i01], ?_, ?_, ?_, ?_⟩
        · rw [rows, if_neg h0, if_pos hi, if_pos hj, hw]
          simp only
          rw [e1]; exact e
        · intro r
          rw [List.mem_cons, mem]
          constructor
          · rintro (rfl | ⟨a, ⟨k, hk, er⟩, b⟩)
            · exact ⟨h0, ⟨ii, by simp, rfl⟩, hj⟩
            · refine ⟨a, ⟨k, by simp [hk], er⟩, ?_⟩
              by_cases hr : r = node ii
              · rw [hr]; exact hj
              · rwa [upd_ne _ _ hr] at b
          · rintro ⟨a, ⟨k, hk, er⟩, b⟩
            by_cases hr : r = node ii
            · exact Or.inl hr
            · right
              refine ⟨a, ?_, by rwa [upd_ne _ _ hr]⟩
              rcases List.mem_cons.1 hk with rfl | hk
              · exact absurd er.symm hr
              · exact ⟨k, hk, er⟩
        · intro r
          rw [i1, i01, i11]
          by_cases hr : r = node ii
          · subst hr; simp
          · simp [hr, upd_ne _ _ hr]
        · intro i j
          rw [m1, m01]
          rw [m11]
          simp only [List.mem_cons, hC]
          by_cases hi' : i = node ii - 1
          · subst hi'
            by_cases hu : j + 1 ∈ used s node <;> simp [hu]
          · have h2 : i + 1 ≠ node ii := by omega
            simp [hi', h2]
        · intro p hp
          rw [b1 p hp, b11, addSource_b _ _ _ _ hp, List.map_cons, List.sum_cons, add_assoc]
          congr 2
          refine congrArg List.sum (List.map_congr_left fun r hr => ?_)
          have hr' : r ≠ node ii := fun e => hR (e ▸ hr)
          rw [i01, i11]
          simp [upd_ne _ _ hr']
        · intro p q hp hq
          rw [a1 p q hp hq, a11 p q hp hq, addSource_a, List.map_cons, List.sum_cons, add_assoc]
          congr 2
          · rw [← List.sum_toFinset _ nd1, hCu]
          · refine congrArg List.sum (List.map_congr_left fun r hr => ?_)
            have hr' : r ≠ node ii := fun e => hR (e ▸ hr)
            have : ¬(r - 1 = node ii - 1) := by omega
            refine Finset.sum_congr rfl fun c _ => ?_
            rw [m01, m11]
            simp [this]
      · obtain ⟨R, d', sys', e, nd, mem, rest⟩ := IH hl' ih jh hjh d sys
        refine ⟨R, d', sys', by rw [rows, if_neg h0, if_pos hi, if_neg hj, e], nd, ?_, rest⟩
        intro r
        rw [mem]
        constructor
        · rintro ⟨a, ⟨k, hk, er⟩, b⟩; exact ⟨a, ⟨k, by simp [hk], er⟩, b⟩
        · rintro ⟨a, ⟨k, hk, er⟩, b⟩
          rcases List.mem_cons.1 hk with rfl | hk
          · rw [← er] at b; exact absurd b hj
          · exact ⟨a, ⟨k, hk, er⟩, b⟩

theorem trLoad_eq (s : Shape) (wires : ℕ → Option Circ) (node : ℕ → ℤ) (φ : ℤ → Circ) (h : Wired s wires node φ) (mf : F) (inc : Bool)
    (d : Dev F) (sys : Sys F) :
    ∃ (d' : Dev F) (sys' : Sys F), trLoad s wires node mf inc d sys = some (d', sys') ∧ d'.m0 = d.m0 ∧ d'.i0 = d.i0 ∧
      (∀ r ∈ used s node, d'.i1 r = d.i0 r) ∧
      (∀ r ∈ used s node, ∀ c ∈ used s node, d'.m1 (r - 1) (c - 1) = d.m0 (r - 1) (c - 1)) ∧
      (∀ p, p ≠ .gnd → sys'.b p = sys.b p + ∑ r ∈ used s node, if φ r = p then amount mf inc (d.i0 r) (d.i1 r) else 0) ∧
      ∀ p q, p ≠ .gnd → q ≠ .gnd → sys'.a p q = sys.a p q + ∑ r ∈ used s node, ∑ c ∈ used s node,
        if φ r = p ∧ φ c = q then amount mf inc (d.m0 (r - 1) (c - 1)) (d.m1 (r - 1) (c - 1)) else 0 := by
  obtain ⟨R, d', sys', e, nd, mem, m0, i0, i1, m1, b1, a1⟩ := rows_eq s wires node φ h mf inc (List.range s.mat) (by simp) (fun _ => false)
    (fun _ => 0) (fun _ => Or.inl rfl) d sys
  have hR : ∀ r, r ∈ R ↔ r ∈ used s node := by
    intro r; rw [mem, mem_used]; simp [InUse]
  have hRu : R.toFinset = used s node := by ext r; simp [hR]
  refine ⟨d', sys', e, m0, i0, ?_, ?_, ?_, ?_⟩
  · intro r hr; rw [i1, if_pos ((hR r).2 hr)]
  · intro r hr c hc
    rw [m1, if_pos]
    simp only [sub_add_cancel]
    exact ⟨(hR r).2 hr, hc⟩
  · intro p hp; rw [b1 p hp, ← List.sum_toFinset _ nd, hRu]
  · intro p q hp hq; rw [a1 p q hp hq, ← List.sum_toFinset _ nd, hRu]

end

/-! ## stamps by number and by place -/

section
variable {F : Type _} [Field F]

theorem eval_m0 (st : Stamps F) (d : Dev F) (r c : ℤ) (hr : r ≠ 0) (hc : c ≠ 0) : (evalDev st d).m0 (r - 1) (c - 1) = st.sum2 r c := by
  have key : ∀ (l : List (ℤ × ℤ × F)) (m : ℤ → ℤ → F),
      (l.foldl (fun m e => match smp e.1 e.2.1 with
        | some p => upd m p.1 (upd (m p.1) p.2 (m p.1 p.2 + e.2.2))
        | none => m) m) (r - 1) (c - 1) =
      m (r - 1) (c - 1) + ((l.filter fun e => decide (e.1 = r) && decide (e.2.1 = c)).map (·.2.2)).sum := by
    intro l
    induction l with
    | nil => simp
    | cons e t ih =>
      intro m
      rw [List.foldl_cons, ih]
      obtain ⟨a, b, x⟩ := e
      simp only
      by_cases h0 : a = 0 ∨ b = 0
      · have h1 : ¬(a = r ∧ b = c) := by rintro ⟨rfl, rfl⟩; exact h0.elim hr hc
        have h2 : (decide (a = r) && decide (b = c)) = false := by
          rw [← Bool.decide_and]; simpa using h1
        rw [List.filter_cons_of_neg (by simp [h2])]
        simp only [smp, h0, if_true]
      · simp only [smp, h0, if_false]
        by_cases h1 : a = r
        · subst h1
          by_cases h2 : b = c
          · subst h2
            simp [List.filter_cons_of_pos, add_assoc]
          · have h3 : c - 1 ≠ b - 1 := by omega
            rw [List.filter_cons_of_neg (by simp [h2])]
            simp [upd_ne _ _ h3]
        · have h3 : r - 1 ≠ a - 1 := by omega
          rw [List.filter_cons_of_neg (by simp [h1])]
          simp [upd_ne _ _ h3]
  have := key st.mat (fun _ _ => 0)
  rw [zero_add] at this
  exact this

theorem eval_i0 (st : Stamps F) (d : Dev F) (r : ℤ) : (evalDev st d).i0 r = st.sum1 r := by
  have key : ∀ (l : List (ℤ × F)) (m : ℤ → F), (l.foldl (fun i e => upd i e.1 (i e.1 + e.2)) m) r =
      m r + ((l.filter fun e => decide (e.1 = r)).map (·.2)).sum := by
    intro l
    induction l with
    | nil => simp
    | cons e t ih =>
      intro m
      rw [List.foldl_cons, ih]
      by_cases h1 : e.1 = r
      · subst h1; simp [add_assoc]
      · have h3 : r ≠ e.1 := fun h => h1 h.symm
        rw [List.filter_cons_of_neg (by simp [h1])]
        simp [upd_ne _ _ h3]
  have := key st.rhs (fun _ => 0)
  rw [zero_add] at this
  exact this

theorem place2 (st : Stamps F) (s : Shape) (node : ℕ → ℤ) (φ : ℤ → Circ) (hz : φ 0 = .gnd) (hw : st.Within s node) (p q : Circ)
    (hp : p ≠ .gnd) (hq : q ≠ .gnd) :
    (∑ r ∈ used s node, ∑ c ∈ used s node, if φ r = p ∧ φ c = q then st.sum2 r c else 0) = st.at φ p q := by
  obtain ⟨mat, rhs⟩ := st
  replace hw := hw.1
  simp only [Stamps.sum2, Stamps.at] at *
  clear rhs
  induction mat with
  | nil => simp
  | cons e t ih =>
    have ht := ih fun e he => hw e (by simp [he])
    obtain ⟨a, b, x⟩ := e
    have hab := hw (a, b, x) (by simp)
    simp only at hab
    have split1 : ∀ r c : ℤ, ((((a, b, x) :: t).filter fun e => decide (e.1 = r) && decide (e.2.1 = c)).map (·.2.2)).sum =
        (if a = r ∧ b = c then x else 0) + ((t.filter fun e => decide (e.1 = r) && decide (e.2.1 = c)).map (·.2.2)).sum := by
      intro r c
      by_cases h : a = r ∧ b = c
      · rw [List.filter_cons_of_pos (by simp [h]), if_pos h]; simp
      · rw [List.filter_cons_of_neg (by simpa using h), if_neg h, zero_add]
    have split2 : ((((a, b, x) :: t).filter fun e => decide (φ e.1 = p) && decide (φ e.2.1 = q)).map (·.2.2)).sum =
        (if φ a = p ∧ φ b = q then x else 0) + ((t.filter fun e => decide (φ e.1 = p) && decide (φ e.2.1 = q)).map (·.2.2)).sum := by
      by_cases h : φ a = p ∧ φ b = q
      · rw [List.filter_cons_of_pos (by simp [h]), if_pos h]; simp
      · rw [List.filter_cons_of_neg (by simpa using h), if_neg h, zero_add]
    rw [split2, ← ht]
    have e1 : ∀ r c : ℤ, (if φ r = p ∧ φ c = q then
        ((((a, b, x) :: t).filter fun e => decide (e.1 = r) && decide (e.2.1 = c)).map (·.2.2)).sum else 0) =
        (if a = r then (if b = c then (if φ a = p ∧ φ b = q then x else 0) else 0) else 0) +
        (if φ r = p ∧ φ c = q then ((t.filter fun e => decide (e.1 = r) && decide (e.2.1 = c)).map (·.2.2)).sum else 0) := by
      intro r c
      rw [split1]
      by_cases h1 : a = r
      · subst h1
        by_cases h2 : b = c
        · subst h2
          by_cases h3 : φ a = p ∧ φ b = q <;> simp [h3]
        · simp [h2]
      · simp [h1]
    simp only [e1, Finset.sum_add_distrib]
    congr 1
    have zero : ∀ k : ℤ, φ k ≠ .gnd → (k = 0 ∨ InUse s node k) → k ∈ used s node := by
      rintro k hk (rfl | h)
      · exact absurd hz hk
      · exact (mem_used s node k).2 h
    by_cases h3 : φ a = p ∧ φ b = q
    · have ha := zero a (by rw [h3.1]; exact hp) hab.1
      have hb := zero b (by rw [h3.2]; exact hq) hab.2
      rw [Finset.sum_eq_single a]
      · simp [hb, h3]
      · intro r _ hr
        have hr' : ¬a = r := fun e => hr e.symm
        simp [hr']
      · exact fun h => absurd ha h
    · simp [h3]

theorem place1 (st : Stamps F) (s : Shape) (node : ℕ → ℤ) (φ : ℤ → Circ) (hz : φ 0 = .gnd) (hw : st.Within s node) (p : Circ)
    (hp : p ≠ .gnd) : (∑ r ∈ used s node, if φ r = p then st.sum1 r else 0) = st.into φ p := by
  obtain ⟨mat, rhs⟩ := st
  replace hw := hw.2
  simp only [Stamps.sum1, Stamps.into] at *
  clear mat
  induction rhs with
  | nil => simp
  | cons e t ih =>
    have ht := ih fun e he => hw e (by simp [he])
    obtain ⟨a, x⟩ := e
    have hab := hw (a, x) (by simp)
    simp only at hab
    have split1 : ∀ r : ℤ, ((((a, x) :: t).filter fun e => decide (e.1 = r)).map (·.2)).sum =
        (if a = r then x else 0) + ((t.filter fun e => decide (e.1 = r)).map (·.2)).sum := by
      intro r
      by_cases h : a = r
      · rw [List.filter_cons_of_pos (by simp [h]), if_pos h]; simp
      · rw [List.filter_cons_of_neg (by simpa using h), if_neg h, zero_add]
    have split2 : ((((a, x) :: t).filter fun e => decide (φ e.1 = p)).map (·.2)).sum =
        (if φ a = p then x else 0) + ((t.filter fun e => decide (φ e.1 = p)).map (·.2)).sum := by
      by_cases h : φ a = p
      · rw [List.filter_cons_of_pos (by simp [h]), if_pos h]; simp
      · rw [List.filter_cons_of_neg (by simpa using h), if_neg h, zero_add]
    rw [split2, ← ht]
    have e1 : ∀ r : ℤ, (if φ r = p then ((((a, x) :: t).filter fun e => decide (e.1 = r)).map (·.2)).sum else 0) =
        (if a = r then (if φ a = p then x else 0) else 0) +
        (if φ r = p then ((t.filter fun e => decide (e.1 = r)).map (·.2)).sum else 0) := by
      intro r
      rw [split1]
      by_cases h1 : a = r
      · subst h1
        by_cases h3 : φ a = p <;> simp [h3]
      · simp [h1]
    simp only [e1, Finset.sum_add_distrib]
    congr 1
    by_cases h3 : φ a = p
    · have ha : a ∈ used s node := by
        rcases hab with rfl | h
        · exact absurd (h3.symm.trans hz) hp
        · exact (mem_used s node a).2 h
      simp [h3, ha]
    · simp [h3]

/-- one load: the amounts are the new stamps, or in incremental mode the new less the old -/
theorem load_once (s : Shape) (wires : ℕ → Option Circ) (node : ℕ → ℤ) (φ : ℤ → Circ) (h : Wired s wires node φ) (mf : F) (inc : Bool)
    (old new : Stamps F) (ho : old.Within s node) (hn : new.Within s node) (d : Dev F) (hd : inc = true → Remembers s node old d)
    (rest sys : Sys F) (hsys : if inc = true then Holds φ mf rest old sys else sys = rest) :
    ∃ d' sys', trLoad s wires node mf inc (evalDev new d) sys = some (d', sys') ∧ Holds φ mf rest new sys' ∧ Remembers s node new d' := by
  obtain ⟨d', sys', e, m0, i0, i1, m1, b1, a1⟩ := trLoad_eq s wires node φ h mf inc (evalDev new d) sys
  refine ⟨d', sys', e, ⟨?_, ?_⟩, ?_, ?_⟩
  · intro p q hp hq
    rw [a1 p q hp hq]
    have step : ∀ r ∈ used s node, ∀ c ∈ used s node,
        (if φ r = p ∧ φ c = q then amount mf inc ((evalDev new d).m0 (r - 1) (c - 1)) ((evalDev new d).m1 (r - 1) (c - 1)) else 0) =
        mf * (if φ r = p ∧ φ c = q then new.sum2 r c else 0) -
          if inc = true then mf * (if φ r = p ∧ φ c = q then old.sum2 r c else 0) else 0 := by
      intro r hr c hc
      have hr' := (mem_used s node r).1 hr
      have hc' := (mem_used s node c).1 hc
      rw [eval_m0 new d r c hr'.1 hc'.1]
      rcases inc with _ | _
      · by_cases h3 : φ r = p ∧ φ c = q <;> simp [amount, h3]
      · have : (evalDev new d).m1 (r - 1) (c - 1) = old.sum2 r c := (hd rfl).1 r c hr' hc'
        rw [this]
        by_cases h3 : φ r = p ∧ φ c = q <;> simp [amount, h3, mul_sub]
    rw [Finset.sum_congr rfl fun r hr => Finset.sum_congr rfl fun c hc => step r hr c hc]
    simp only [Finset.sum_sub_distrib, ← Finset.mul_sum]
    rw [place2 new s node φ h.zero hn p q hp hq]
    rcases inc with _ | _
    · simp only [Bool.false_eq_true, if_false] at hsys
      simp [hsys]
    · simp only [if_true] at hsys ⊢
      simp only [← Finset.mul_sum]
      rw [place2 old s node φ h.zero ho p q hp hq, hsys.1 p q hp hq]
      ring
  · intro p hp
    rw [b1 p hp]
    have step : ∀ r ∈ used s node,
        (if φ r = p then amount mf inc ((evalDev new d).i0 r) ((evalDev new d).i1 r) else 0) =
        mf * (if φ r = p then new.sum1 r else 0) - if inc = true then mf * (if φ r = p then old.sum1 r else 0) else 0 := by
      intro r hr
      have hr' := (mem_used s node r).1 hr
      rw [eval_i0 new d r]
      rcases inc with _ | _
      · by_cases h3 : φ r = p <;> simp [amount, h3]
      · have : (evalDev new d).i1 r = old.sum1 r := (hd rfl).2 r hr'
        rw [this]
        by_cases h3 : φ r = p <;> simp [amount, h3, mul_sub]
    rw [Finset.sum_congr rfl step]
    simp only [Finset.sum_sub_distrib, ← Finset.mul_sum]
    rw [place1 new s node φ h.zero hn p hp]
    rcases inc with _ | _
    · simp only [Bool.false_eq_true, if_false] at hsys
      simp [hsys]
    · simp only [if_true] at hsys ⊢
      simp only [← Finset.mul_sum]
      rw [place1 old s node φ h.zero ho p hp, hsys.2 p hp]
      ring
  · intro r c hr hc
    rw [m1 r ((mem_used s node r).2 hr) c ((mem_used s node c).2 hc), eval_m0 new d r c hr.1 hc.1]
  · intro r hr
    rw [i1 r ((mem_used s node r).2 hr), eval_i0]

/-! ## theorems about the device in the circuit -/

/-- evaluations and loads one after another, each full (into a circuit that has the others only) or incremental -/
def runLoads (s : Shape) (wires : ℕ → Option Circ) (node : ℕ → ℤ) (mf : F) (rest : Sys F) :
    List (Bool × Stamps F) → Dev F → Sys F → Option (Dev F × Sys F)
  | [], d, sys => some (d, sys)
  | (inc, st) :: t, d, sys =>
    match trLoad s wires node mf inc (evalDev st d) (if inc then sys else rest) with
    | none => none
    | some (d', sys') => runLoads s wires node mf rest t d' sys'

/-- **C93**: for every device that does as `Proper` asks there is a seating of its numbers: terminals where they are connected, unconnected
ones at ground if that is asked for, a node of its own for every further number.  The device reads the voltages of the seats, and after any
sequence of evaluations and loads, the first one full, the others full or incremental, the circuit has the others and what the device
stamped last, each stamp at the seats of its numbers and counted once, however many slots share a number. -/
theorem spice_device (s : Shape) (ext : ℕ → Option ℕ) (ops : List SetupOp) (h : Proper s ops) :
    ∃ φ : ℤ → Circ, Seats s ext (setup s ops).node φ ∧
      (∀ v : Circ → F, v .gnd = 0 → ∃ V, seen s (wire s ext (setup s ops).node) (setup s ops).node v = some V ∧
        ∀ r, r = 0 ∨ InUse s (setup s ops).node r → V r = v (φ r)) ∧
      ∀ (mf : F) (rest sys : Sys F) (d : Dev F) (first : Stamps F) (l : List (Bool × Stamps F)),
        first.Within s (setup s ops).node → (∀ e ∈ l, e.2.Within s (setup s ops).node) →
        ∃ d' sys', runLoads s (wire s ext (setup s ops).node) (setup s ops).node mf rest ((false, first) :: l) d sys = some (d', sys') ∧
          Holds φ mf rest ((l.getLast?.map (·.2)).getD first) sys' := by
  obtain ⟨W, S⟩ := wired s ext ops h
  refine ⟨_, S, fun v hv => seen_eq s _ _ _ W v hv, ?_⟩
  intro mf rest sys d first l hf hl
  have key : ∀ (l : List (Bool × Stamps F)) (old : Stamps F) (d : Dev F) (sys : Sys F), (∀ e ∈ l, e.2.Within s (setup s ops).node) →
      old.Within s (setup s ops).node → Remembers s (setup s ops).node old d → Holds (seat s ext (setup s ops).node) mf rest old sys →
      ∃ d' sys', runLoads s (wire s ext (setup s ops).node) (setup s ops).node mf rest l d sys = some (d', sys') ∧
        Holds (seat s ext (setup s ops).node) mf rest ((l.getLast?.map (·.2)).getD old) sys' := by
    intro l
    induction l with
    | nil => exact fun old d sys _ _ _ hh => ⟨d, sys, rfl, by simpa using hh⟩
    | cons e t ih =>
      obtain ⟨inc, st⟩ := e
      intro old d sys hl ho hr hh
      have hst := hl (inc, st) (by simp)
      obtain ⟨d1, sys1, e1, H1, R1⟩ := load_once s _ _ _ W mf inc old st ho hst d (fun _ => hr) rest (if inc then sys else rest) (by
        rcases inc with _ | _ <;> simp [hh])
      obtain ⟨d2, sys2, e2, H2⟩ := ih st d1 sys1 (fun e he => hl e (by simp [he])) hst R1 H1
      refine ⟨d2, sys2, by rw [runLoads, e1]; exact e2, ?_⟩
      rcases t with _ | ⟨x, t⟩
      · simpa using H2
      · rw [List.getLast?_cons_cons]
        rcases hg : (x :: t).getLast? with _ | y
        · simp at hg
        · rw [hg] at H2; simpa using H2
  obtain ⟨d1, sys1, e1, H1, R1⟩ := load_once s _ _ _ W mf false first first hf hf d (by simp) rest rest (by simp)
  obtain ⟨d2, sys2, e2, H2⟩ := key l first d1 sys1 hl hf R1 H1
  exact ⟨d2, sys2, by simp only [runLoads, Bool.false_eq_true, if_false]; rw [e1]; exact e2, H2⟩

end

/-! ## examples, and where it goes wrong -/

/-- three terminals, the last grounded when left out, two internal slots: one with a node of its own, one joined to terminal 1 -/
def demoShape : Shape := ⟨2, 3, 5, .ground⟩
def demoOps : List SetupOp := [.mk 3, .join 4 1]

theorem demo_proper : Proper demoShape demoOps :=
  ⟨by decide, by decide, by decide, by decide, by
    intro ii jj h
    simp only [demoOps, List.mem_cons, reduceCtorEq, SetupOp.join.injEq, List.not_mem_nil, or_false, false_or] at h
    obtain ⟨rfl, rfl⟩ := h
    decide, by decide, by intro h; exact absurd h (by decide)⟩

example : (List.range 5).map (setup demoShape demoOps).node = [1, 2, 3, 4, 2] := by decide

example : ∃ φ : ℤ → Circ, Seats demoShape (fun k => some (k + 7)) (setup demoShape demoOps).node φ ∧
    (∀ v : Circ → ℚ, v .gnd = 0 → ∃ V, seen demoShape (wire demoShape (fun k => some (k + 7)) (setup demoShape demoOps).node)
      (setup demoShape demoOps).node v = some V ∧ ∀ r, r = 0 ∨ InUse demoShape (setup demoShape demoOps).node r → V r = v (φ r)) :=
  (spice_device demoShape (fun k => some (k + 7)) demoOps demo_proper).imp fun _ h => ⟨h.1, h.2.1⟩

/-- stamps of a conductance 3 between numbers 1 and 4, one of 5 from 2 to ground, and a current -/
def demoStamps : Stamps ℚ := ⟨[(1, 1, 3), (1, 4, -3), (4, 1, -3), (4, 4, 3), (2, 2, 5), (0, 2, -5)], [(4, 7)]⟩

example : demoStamps.Within demoShape (setup demoShape demoOps).node := by
  have u1 : InUse demoShape (setup demoShape demoOps).node 1 := ⟨by decide, 0, by decide, by decide⟩
  have u2 : InUse demoShape (setup demoShape demoOps).node 2 := ⟨by decide, 1, by decide, by decide⟩
  have u4 : InUse demoShape (setup demoShape demoOps).node 4 := ⟨by decide, 3, by decide, by decide⟩
  refine ⟨?_, ?_⟩
  · intro e he
    simp only [demoStamps, List.mem_cons, List.not_mem_nil, or_false] at he
    rcases he with rfl | rfl | rfl | rfl | rfl | rfl <;> simp [u1, u2, u4]
  · intro e he
    simp only [demoStamps, List.mem_cons, List.not_mem_nil, or_false] at he
    rcases he with rfl; simp [u4]

section
variable {F : Type _} [Field F]

/-- an index outside ends the copy -/
theorem seen_outside (s : Shape) (wires : ℕ → Option Circ) (node : ℕ → ℤ) (v : Circ → F) (ii : ℕ) (hi : ii < s.mat) (h0 : node ii ≠ 0)
    (ho : ¬inside s (node ii)) : seen s wires node v = none := by
  have key : ∀ (l : List ℕ) (a : ℤ → F), ii ∈ l → copyIn s wires node v l a = none := by
    intro l
    induction l with
    | nil => intro a h; simp at h
    | cons k t ih =>
      intro a h
      rw [copyIn]
      rcases List.mem_cons.1 h with rfl | h
      · rw [if_neg h0, if_neg ho]
      · split
        · exact ih a h
        · split
          · split
            · exact ih _ h
            · rfl
          · rfl
  exact key _ _ (by simpa using hi)

/-- the same for loading -/
theorem trLoad_outside (s : Shape) (wires : ℕ → Option Circ) (node : ℕ → ℤ) (mf : F) (inc : Bool) (d : Dev F) (sys : Sys F) (ii : ℕ)
    (hi : ii < s.mat) (h0 : node ii ≠ 0) (ho : ¬inside s (node ii)) : trLoad s wires node mf inc d sys = none := by
  have key : ∀ (l : List ℕ) (ih : ℤ → Bool) (jh : ℤ → ℤ) (d : Dev F) (sys : Sys F), ii ∈ l → rows s wires node mf inc l ih jh d sys = none := by
    intro l
    induction l with
    | nil => intro ih jh d sys h; simp at h
    | cons k t IH =>
      intro ih jh d sys h
      rw [rows]
      rcases List.mem_cons.1 h with rfl | h
      · rw [if_neg h0, if_neg ho]
      · split
        · exact IH _ _ _ _ h
        · split
          · split
            · split
              · rfl
              · simp only
                split
                · rfl
                · exact IH _ _ _ _ h
            · exact IH _ _ _ _ h
          · rfl
  exact key _ _ _ _ _ (by simpa using hi)

/-- **C93, fails**: a terminal left out where terminals may float keeps the number -1 if the device does nothing about it (its slot is not
written), and with that number arrays are read and written in front of their first entry, at the first evaluation and at the first load. -/
theorem spice_float_wrong (s : Shape) (ext : ℕ → Option ℕ) (ops : List SetupOp) (h1 : s.max ≤ s.mat) (hu : s.un = .float) (ii : ℕ)
    (hn : s.net ≤ ii) (hm : ii < s.max) (ho : ∀ op ∈ ops, op.target ≠ ii) (v : Circ → F) (mf : F) (inc : Bool) (d : Dev F) (sys : Sys F) :
    seen s (wire s ext (setup s ops).node) (setup s ops).node v = none ∧
    trLoad s (wire s ext (setup s ops).node) (setup s ops).node mf inc d sys = none := by
  have key : (setup s ops).node ii = -1 := by
    unfold setup
    have : ∀ (l : List SetupOp) (n : Num), (∀ op ∈ l, op.target ≠ ii) → (l.foldl setupStep n).node ii = n.node ii := by
      intro l
      induction l with
      | nil => intro n _; rfl
      | cons o t ih =>
        intro n h
        rw [List.foldl_cons, ih _ fun op hop => h op (by simp [hop])]
        have := h o (by simp)
        rcases o with i | ⟨i, j⟩ <;> exact upd_ne _ _ (Ne.symm this)
    rw [this _ _ ho]
    simp [before, hu, hm, Nat.not_lt.2 hn]
  have h0 : (setup s ops).node ii ≠ 0 := by rw [key]; decide
  have h3 : ¬inside s ((setup s ops).node ii) := by rw [key]; exact fun h => absurd h.1 (by decide)
  exact ⟨seen_outside s _ _ v ii (by omega) h0 h3, trLoad_outside s _ _ mf inc d sys ii (by omega) h0 h3⟩

/-- **C93, fails**: where terminals may float, a device that gives every slot that is not connected a node of its own runs out of numbers: the
counter starts after all terminals, connected or not, so the last number is beyond the arrays. -/
theorem spice_float_beyond_wrong (s : Shape) (ext : ℕ → Option ℕ) (h1 : s.net < s.max) (h2 : s.max ≤ s.mat) (v : Circ → F) (mf : F)
    (inc : Bool) (d : Dev F) (sys : Sys F) :
    let n := setup s ((List.range' s.net (s.mat - s.net)).map .mk)
    seen s (wire s ext n.node) n.node v = none ∧ trLoad s (wire s ext n.node) n.node mf inc d sys = none := by
  intro n
  have key : ∀ (k : ℕ) (m : Num), (((List.range' s.net (k + 1)).map SetupOp.mk).foldl setupStep m).node (s.net + k) = (m.top : ℤ) + k + 1 ∧
      (((List.range' s.net (k + 1)).map SetupOp.mk).foldl setupStep m).top = m.top + k + 1 := by
    intro k
    induction k with
    | zero => intro m; simp [setupStep]
    | succ k ih =>
      intro m
      rw [List.range'_concat, List.map_append, List.foldl_append]
      obtain ⟨_, e2⟩ := ih m
      generalize List.foldl setupStep m ((List.range' s.net (k + 1)).map SetupOp.mk) = m' at e2
      simp only [List.map_cons, List.map_nil, List.foldl_cons, List.foldl_nil, setupStep, Nat.one_mul, upd_same, e2]
      exact ⟨by push_cast; ring, by ring⟩
  obtain ⟨e, _⟩ := key (s.mat - s.net - 1) ⟨before s, s.max⟩
  have e3 : s.mat - s.net - 1 + 1 = s.mat - s.net := by omega
  have e4 : s.net + (s.mat - s.net - 1) = s.mat - 1 := by omega
  rw [e3, e4] at e
  have e5 : n.node (s.mat - 1) = (s.max : ℤ) + ((s.mat - s.net - 1 : ℕ) : ℤ) + 1 := e
  have h0 : n.node (s.mat - 1) ≠ 0 := by rw [e5]; omega
  have h3 : ¬inside s (n.node (s.mat - 1)) := by rw [e5]; rintro ⟨_, h⟩; omega
  exact ⟨seen_outside s _ _ v (s.mat - 1) (by omega) h0 h3, trLoad_outside s _ _ mf inc d sys (s.mat - 1) (by omega) h0 h3⟩

example : Unconn.float = (⟨1, 2, 3, .float⟩ : Shape).un ∧ (⟨1, 2, 3, .float⟩ : Shape).net < (⟨1, 2, 3, .float⟩ : Shape).max := by decide

/-- one terminal, two slots inside, both the same node -/
def joinShape : Shape := ⟨1, 1, 3, .disallow⟩
def joinOps : List SetupOp := [.mk 1, .join 2 1]

/-- **C93, fails**: a device that joins one of its own nodes to another of its own.  Both slots have number 2, but two nodes are made: the
device reads the voltage of the second, and whatever it stamps never reaches the row of that node, which stays empty. -/
theorem spice_joined_wrong (ext : ℕ → Option ℕ) (v : Circ → F) (mf : F) (inc : Bool) (d : Dev F) (sys : Sys F) :
    let n := (setup joinShape joinOps).node
    n 1 = 2 ∧ n 2 = 2 ∧ wire joinShape ext n 1 = some (.inner 1) ∧ wire joinShape ext n 2 = some (.inner 2) ∧
    (∃ V, seen joinShape (wire joinShape ext n) n v = some V ∧ V 2 = v (.inner 2)) ∧
    ∃ d' sys', trLoad joinShape (wire joinShape ext n) n mf inc d sys = some (d', sys') ∧
      (∀ q, sys'.a (.inner 2) q = sys.a (.inner 2) q) ∧ sys'.b (.inner 2) = sys.b (.inner 2) ∧
      sys'.a (.inner 1) (.inner 1) = sys.a (.inner 1) (.inner 1) + amount mf inc (d.m0 1 1) (d.m1 1 1) := by
  intro n
  have n0 : n 0 = 1 := by decide
  have n1 : n 1 = 2 := by decide
  have n2 : n 2 = 2 := by decide
  have w0 : wire joinShape ext n 0 = some (.ofExt (ext 0)) := by simp [wire, joinShape, start, base]
  have w1 : wire joinShape ext n 1 = some (.inner 1) := by simp [wire, joinShape, start, n1]
  have w2 : wire joinShape ext n 2 = some (.inner 2) := by simp [wire, joinShape, start, n2]
  have i1 : inside joinShape 1 := by decide
  have i2 : inside joinShape 2 := by decide
  have hm : joinShape.mat = 3 := rfl
  have hr : List.range 3 = [0, 1, 2] := by decide
  refine ⟨n1, n2, w1, w2, ⟨_, by simp only [seen, hm, hr, copyIn, n0, n1, n2, w0, w1, w2, i1, i2, if_true]; rfl, by simp [upd]⟩, ?_⟩
  have hx : ∀ a : Circ, a = .ofExt (ext 0) → a ≠ .inner 2 ∧ a ≠ .inner 1 := by
    rintro a rfl; rcases ext 0 with _ | _ <;> simp [Circ.ofExt]
  obtain ⟨x2, x1⟩ := hx _ rfl
  generalize Circ.ofExt (ext 0) = x at w0 x1 x2
  refine ⟨_, _, by simp only [trLoad, hm, hr, rows, cols, n0, n1, n2, w0, w1, w2, i1, i2, if_true, upd]; rfl, ?_, ?_, ?_⟩
  · intro q
    by_cases hg : x = .gnd <;> simp [addPoint, addSource, upd, hg, x2.symm]
  · by_cases hg : x = .gnd <;> simp [addPoint, addSource, upd, hg, x2.symm]
  · by_cases hg : x = .gnd <;> simp [addPoint, addSource, upd, hg, x1.symm]

end

section
variable {F : Type _} [Field F]

/-- **C93, fails**: numbers are stashed at the first `DEVsetup` and put back after the second one (`precalc_last`), while the places for the
stamps are from the second (spice-wrapper.cc:1030-1076).  If a parameter changed so that the device then wants a node of its own for a slot it
had joined to a terminal, its stamps there are never loaded: number 2 is in no slot. -/
theorem spice_setup_changed_wrong (ext : ℕ → Option ℕ) (mf : F) (inc : Bool) (g : F) (d : Dev F) (sys : Sys F) :
    let s : Shape := ⟨1, 1, 2, .disallow⟩
    let first := (setup s [.join 1 0]).node
    let second := (setup s [.mk 1]).node
    second 1 = 2 ∧ ¬InUse s first 2 ∧
    ∃ d' sys', trLoad s (wire s ext first) first mf false (evalDev ⟨[(second 1, second 1, g)], []⟩ d) sys = some (d', sys') ∧
      ∀ p q, p ≠ .gnd → q ≠ .gnd → sys'.a p q = sys.a p q := by
  intro s first second
  have f0 : first 0 = 1 := by decide
  have f1 : first 1 = 1 := by decide
  have s1 : second 1 = 2 := by decide
  have hnot : ¬InUse s first 2 := by
    rintro ⟨_, ii, hi, e⟩
    have : ii = 0 ∨ ii = 1 := by have : ii < 2 := hi; omega
    rcases this with rfl | rfl <;> omega
  have hp : Proper s [.join 1 0] :=
    ⟨by decide, by decide, fun _ => rfl, by decide, by
      intro ii jj h
      simp only [List.mem_cons, SetupOp.join.injEq, List.not_mem_nil, or_false] at h
      obtain ⟨rfl, rfl⟩ := h
      decide, by decide, by intro h; exact absurd h (by decide)⟩
  obtain ⟨W, _⟩ := wired s ext _ hp
  obtain ⟨d', sys', e, _, _, _, _, _, a1⟩ := trLoad_eq s _ _ _ W mf false (evalDev ⟨[(second 1, second 1, g)], []⟩ d) sys
  refine ⟨s1, hnot, d', sys', e, ?_⟩
  intro p q h1 h2
  rw [a1 p q h1 h2, Finset.sum_eq_zero, add_zero]
  intro r hr
  refine Finset.sum_eq_zero fun c hc => ?_
  have hr' := (mem_used s first r).1 hr
  have hc' := (mem_used s first c).1 hc
  rw [eval_m0 _ _ r c hr'.1 hc'.1]
  have : r ≠ 2 := fun e => hnot (e ▸ hr')
  have h3 : ¬(2 : ℤ) = r := fun e => this e.symm
  simp [Stamps.sum2, s1, h3, amount]

/-- **C93** (partial: the matrix only; the currents are not taken out, see `spice_unload_wrong`): unloading, with increments, takes the
conductances of a device out of the circuit. -/
theorem spice_unload_partial (s : Shape) (ext : ℕ → Option ℕ) (ops : List SetupOp) (h : Proper s ops) :
    ∃ φ : ℤ → Circ, Seats s ext (setup s ops).node φ ∧
      ∀ (mf : F) (rest sys : Sys F) (d : Dev F) (st : Stamps F), st.Within s (setup s ops).node → Remembers s (setup s ops).node st d →
        Holds φ mf rest st sys → (∀ r, InUse s (setup s ops).node r → d.i0 r = st.sum1 r) →
        ∃ d' sys', trUnload s (wire s ext (setup s ops).node) (setup s ops).node mf true d sys = some (d', sys') ∧
          (∀ p q, p ≠ .gnd → q ≠ .gnd → sys'.a p q = rest.a p q) ∧
          ∀ p, p ≠ .gnd → sys'.b p = rest.b p + mf * st.into φ p := by
  obtain ⟨W, S⟩ := wired s ext ops h
  have inr : ∀ r, InUse s (setup s ops).node r → 0 ≤ r - 1 ∧ r - 1 < s.mat := by
    rintro r ⟨h0, ii, hi, rfl⟩
    obtain ⟨⟨a, b⟩, _⟩ := W.ok ii hi h0
    omega
  refine ⟨_, S, ?_⟩
  intro mf rest sys d st hw hr hh hi
  obtain ⟨d', sys', e, _, _, _, _, b1, a1⟩ := trLoad_eq s _ _ _ W mf true
    { d with m0 := fun i j => if 0 ≤ i ∧ i < s.mat ∧ 0 ≤ j ∧ j < s.mat then 0 else d.m0 i j } sys
  refine ⟨d', sys', e, ?_, ?_⟩
  · intro p q hp hq
    rw [a1 p q hp hq]
    have step : ∀ r ∈ used s (setup s ops).node, ∀ c ∈ used s (setup s ops).node,
        (if seat s ext (setup s ops).node r = p ∧ seat s ext (setup s ops).node c = q then
          amount mf true (if 0 ≤ r - 1 ∧ r - 1 < s.mat ∧ 0 ≤ c - 1 ∧ c - 1 < s.mat then 0 else d.m0 (r - 1) (c - 1)) (d.m1 (r - 1) (c - 1))
          else 0) =
        -mf * (if seat s ext (setup s ops).node r = p ∧ seat s ext (setup s ops).node c = q then st.sum2 r c else 0) := by
      intro r hr' c hc'
      have ur := (mem_used s _ r).1 hr'
      have uc := (mem_used s _ c).1 hc'
      have := inr r ur
      have := inr c uc
      rw [hr.1 r c ur uc, if_pos (by omega : 0 ≤ r - 1 ∧ r - 1 < s.mat ∧ 0 ≤ c - 1 ∧ c - 1 < s.mat)]
      split <;> simp [amount]
    rw [Finset.sum_congr rfl fun r hr => Finset.sum_congr rfl fun c hc => step r hr c hc]
    simp only [← Finset.mul_sum]
    rw [place2 st s _ _ W.zero hw p q hp hq, hh.1 p q hp hq]
    ring
  · intro p hp
    rw [b1 p hp, Finset.sum_eq_zero, add_zero, hh.2 p hp]
    intro r hr'
    have ur := (mem_used s _ r).1 hr'
    rw [hr.2 r ur]
    split
    · simp [amount, hi r ur]
    · rfl

/-- **C93**: AC with a device that has `DEVacLoad`: every stamp is at the seats of its numbers, once. -/
theorem spice_ac (s : Shape) (ext : ℕ → Option ℕ) (ops : List SetupOp) (h : Proper s ops) (pz : Bool) :
    ∃ φ : ℤ → Circ, Seats s ext (setup s ops).node φ ∧
      ∀ (mf : F) (sys : Sys F) (st : Stamps F), st.Within s (setup s ops).node →
        ∃ sys', acLoad ⟨true, pz⟩ s (wire s ext (setup s ops).node) (setup s ops).node mf st sys = some sys' ∧ Holds φ mf sys st sys' := by
  obtain ⟨W, S⟩ := wired s ext ops h
  refine ⟨_, S, ?_⟩
  intro mf sys st hw
  obtain ⟨d', sys', e, H, _⟩ := load_once s _ _ _ W mf false st st hw hw ⟨fun _ _ => 0, fun _ _ => 0, fun _ => 0, fun _ => 0⟩ (by simp) sys sys
    (by simp)
  refine ⟨sys', ?_, H⟩
  simp only [acLoad, Bool.true_or, if_true]
  rw [e]; rfl

end

/-- **C93, fails**: a device with `DEVpzLoad` alone is evaluated for AC (`do_ac`) but not loaded (`ac_load` asks for `DEVacLoad`): with its
stamps at two nodes it leaves the circuit as it was. -/
theorem spice_pz_wrong : ∃ (s : Shape) (ops : List SetupOp) (ext : ℕ → Option ℕ) (st : Stamps ℚ), Proper s ops ∧
    st.Within s (setup s ops).node ∧ ∀ sys : Sys ℚ, ∃ sys',
      acLoad ⟨false, true⟩ s (wire s ext (setup s ops).node) (setup s ops).node 1 st sys = some sys' ∧
      ¬∃ φ, Seats s ext (setup s ops).node φ ∧ Holds φ 1 sys st sys' := by
  refine ⟨⟨1, 1, 1, .disallow⟩, [], fun _ => some 0, ⟨[(1, 1, 5)], []⟩, ⟨by decide, by decide, fun _ => rfl, by simp, by simp, by decide,
    by intro h; exact absurd h (by decide)⟩, ⟨?_, by simp⟩, ?_⟩
  · intro e he
    simp only [List.mem_cons, List.not_mem_nil, or_false] at he
    subst he
    exact ⟨Or.inr ⟨by decide, 0, by decide, by decide⟩, Or.inr ⟨by decide, 0, by decide, by decide⟩⟩
  · intro sys
    refine ⟨sys, rfl, ?_⟩
    rintro ⟨φ, S, H⟩
    have t := (S.term 0 (by decide)).2
    simp only [Nat.cast_zero, zero_add, Circ.ofExt] at t
    have := H.1 (.outer 0) (.outer 0) (by simp) (by simp)
    simp [Stamps.at, t] at this

/-- **C93, fails**: unloading leaves the currents of the device: with increments, a device that put 7 into its terminal still puts 7 -/
theorem spice_unload_wrong : ∃ (s : Shape) (ops : List SetupOp) (ext : ℕ → Option ℕ) (st : Stamps ℚ) (d : Dev ℚ) (rest sys : Sys ℚ)
    (φ : ℤ → Circ), Proper s ops ∧ Seats s ext (setup s ops).node φ ∧ Remembers s (setup s ops).node st d ∧ Holds φ 1 rest st sys ∧
    (evalDev st d).i0 = d.i0 ∧ ∃ d' sys', trUnload s (wire s ext (setup s ops).node) (setup s ops).node 1 true d sys = some (d', sys') ∧
      sys'.b (.outer 0) ≠ rest.b (.outer 0) := by
  have hp : Proper ⟨1, 1, 1, .disallow⟩ [] := ⟨by decide, by decide, fun _ => rfl, by simp, by simp, by decide,
    by intro h; exact absurd h (by decide)⟩
  obtain ⟨φ, S, H⟩ := spice_unload_partial (F := ℚ) ⟨1, 1, 1, .disallow⟩ (fun _ => some 0) [] hp
  have u1 : InUse ⟨1, 1, 1, .disallow⟩ (setup ⟨1, 1, 1, .disallow⟩ []).node 1 := ⟨by decide, 0, by decide, by decide⟩
  have uu : ∀ r, InUse ⟨1, 1, 1, .disallow⟩ (setup ⟨1, 1, 1, .disallow⟩ []).node r → r = 1 := by
    rintro r ⟨_, ii, hi, rfl⟩
    have : ii = 0 := by have : ii < 1 := hi; omega
    subst this; decide
  have t := (S.term 0 (by decide)).2
  simp only [Nat.cast_zero, zero_add, Circ.ofExt] at t
  have t2 := S.zero
  let st : Stamps ℚ := ⟨[], [(1, 7)]⟩
  let d : Dev ℚ := ⟨fun _ _ => 0, fun _ _ => 0, fun r => if r = 1 then 7 else 0, fun r => if r = 1 then 7 else 0⟩
  have R : Remembers ⟨1, 1, 1, .disallow⟩ (setup ⟨1, 1, 1, .disallow⟩ []).node st d := by
    refine ⟨fun r c _ _ => by simp [st, d, Stamps.sum2], fun r hr => ?_⟩
    rw [uu r hr]; simp [st, d, Stamps.sum1]
  have Hd : Holds φ 1 ⟨fun _ _ => 0, fun _ => 0⟩ st ⟨fun _ _ => 0, fun p => 1 * st.into φ p⟩ :=
    ⟨fun p q _ _ => by simp [st, Stamps.at], fun p _ => by simp⟩
  obtain ⟨d', sys', e, _, hb⟩ := H 1 ⟨fun _ _ => 0, fun _ => 0⟩ ⟨fun _ _ => 0, fun p => 1 * st.into φ p⟩ d st ⟨by simp [st], by
    intro e he
    simp only [st, List.mem_cons, List.not_mem_nil, or_false] at he
    subst he; exact Or.inr u1⟩ R Hd (fun r hr => by rw [uu r hr]; simp [st, d, Stamps.sum1])
  refine ⟨_, _, _, st, d, _, _, φ, hp, S, R, Hd, ?_, d', sys', e, ?_⟩
  · funext r
    rw [eval_i0]
    by_cases h : r = 1
    · subst h; simp [st, d, Stamps.sum1]
    · have h' : ¬(1 : ℤ) = r := fun e => h e.symm
      simp [st, d, Stamps.sum1, h, h']
  · rw [hb _ (by simp)]
    simp [st, Stamps.into, t]

/-! ## states -/

section
variable {F : Type _} [Zero F]

/-- the history as it should be: a time step moves every vector one back, the newest is kept as a first guess -/
def histStep (K : ℕ) (h : ℕ → ℕ → F) : StateOp F → ℕ → ℕ → F
  | .advance => fun k => if k = 0 then h 0 else if k < K then h (k - 1) else h k
  | .regress => h
  | .eval f => fun k => if k = 0 then (f h).1 else if k = 1 then (f h).2 else h k

theorem ptr_ok (K : ℕ) (hK : 2 ≤ K) (ops : List (StateOp F)) :
    (∀ k < K, (ops.foldl (Mem.step K) Mem.init).ptr k < K) ∧ (∀ k, K ≤ k → (ops.foldl (Mem.step K) Mem.init).ptr k = k) ∧
    (∀ j k, (ops.foldl (Mem.step K) Mem.init).ptr j = (ops.foldl (Mem.step K) Mem.init).ptr k → j = k) ∧
    (ops.foldl (Mem.step K) Mem.init).view = ops.foldl (histStep K) (fun _ _ => 0) := by
  induction ops using List.reverseRecOn with
  | nil => exact ⟨fun k h => h, fun k _ => rfl, fun j k h => h, rfl⟩
  | append_singleton l op ih =>
    rw [List.foldl_append, List.foldl_append]
    simp only [List.foldl_cons, List.foldl_nil]
    generalize l.foldl (Mem.step K) Mem.init = m at ih ⊢
    obtain ⟨lo, hi, inj, vw⟩ := ih
    rw [← vw]
    rcases op with _ | _ | f
    · have inj' : ∀ j k, (m.step K .advance).ptr j = (m.step K .advance).ptr k → j = k := by
        intro j k h
        simp only [Mem.step] at h
        split at h <;> split at h <;> (try split at h) <;> (try split at h) <;> have := inj _ _ h <;> omega
      refine ⟨?_, ?_, inj', ?_⟩
      · intro k hk
        simp only [Mem.step]
        split
        · exact lo _ (by omega)
        · exact lo _ (by omega)
      · intro k hk
        simp only [Mem.step]
        rw [if_neg (by omega), if_neg (by omega)]; exact hi k hk
      · funext k
        simp only [Mem.view, histStep]
        by_cases h0 : k = 0
        · subst h0
          simp only [Mem.step, if_true, upd_same, one_ne_zero, if_false]
          rw [if_pos (by omega : 1 < K)]
        · have hne : (m.step K .advance).ptr k ≠ (m.step K .advance).ptr 0 := fun h => h0 (inj' _ _ h)
          rw [if_neg h0]
          have : (m.step K .advance).buf ((m.step K .advance).ptr k) = m.buf ((m.step K .advance).ptr k) := upd_ne _ _ hne
          rw [this]
          simp only [Mem.step, h0, if_false]
          split <;> rfl
    · exact ⟨lo, hi, inj, rfl⟩
    · refine ⟨lo, hi, inj, ?_⟩
      funext k
      simp only [Mem.view, histStep, Mem.step]
      by_cases h0 : k = 0
      · subst h0; simp
      · have h1 : m.ptr k ≠ m.ptr 0 := fun h => h0 (inj _ _ h)
        rw [upd_ne _ _ h1, if_neg h0]
        by_cases h2 : k = 1
        · subst h2; simp
        · have h3 : m.ptr k ≠ m.ptr 1 := fun h => h2 (inj _ _ h)
          rw [upd_ne _ _ h3, if_neg h2]

/-- **C93**: rotating the pointers is moving the vectors: through any sequence of time steps, steps back and evaluations the device sees the
history it should, and no two of the vectors are ever the same buffer. -/
theorem spice_states (K : ℕ) (hK : 2 ≤ K) (ops : List (StateOp F)) :
    (ops.foldl (Mem.step K) Mem.init).view = ops.foldl (histStep K) (fun _ _ => 0) ∧
    ∀ j k, (ops.foldl (Mem.step K) Mem.init).ptr j = (ops.foldl (Mem.step K) Mem.init).ptr k → j = k :=
  ⟨(ptr_ok K hK ops).2.2.2, (ptr_ok K hK ops).2.2.1⟩

/-- **C93**: after a time step, however often the point is evaluated and rejected, `_states[k+1]` is what `_states[k]` was before the step, so
long as evaluations set `_states[0]` only. -/
theorem spice_history (K : ℕ) (hK : 2 ≤ K) (past body : List (StateOp F))
    (hb : ∀ op ∈ body, op ≠ .advance ∧ ∀ f, op = .eval f → ∀ h, (f h).2 = h 1) (k : ℕ) (hk : k + 1 < K) :
    ((past ++ .advance :: body).foldl (Mem.step K) Mem.init).view (k + 1) = (past.foldl (Mem.step K) Mem.init).view k := by
  rw [(spice_states K hK _).1, (spice_states K hK past).1, List.foldl_append, List.foldl_cons]
  generalize past.foldl (histStep K) (fun _ _ => 0) = h
  have key : ∀ (body : List (StateOp F)) (h : ℕ → ℕ → F), (∀ op ∈ body, op ≠ .advance ∧ ∀ f, op = .eval f → ∀ h, (f h).2 = h 1) →
      body.foldl (histStep K) h (k + 1) = h (k + 1) := by
    intro body
    induction body with
    | nil => intro h _; rfl
    | cons o t ih =>
      intro h hb
      rw [List.foldl_cons, ih _ fun op ho => hb op (by simp [ho])]
      have := hb o (by simp)
      rcases o with _ | _ | f
      · exact absurd rfl this.1
      · rfl
      · simp only [histStep, Nat.succ_ne_zero, if_false]
        by_cases h1 : k + 1 = 1
        · rw [if_pos h1, this.2 f rfl h, h1]
        · rw [if_neg h1]
  rw [key _ _ hb]
  simp only [histStep, Nat.succ_ne_zero, if_false, if_pos hk, Nat.add_sub_cancel]

example : ((([.eval fun _ => (fun _ => 4, fun _ => 0), .advance, .eval fun h => (fun i => h 0 i + 1, h 1), .regress] :
    List (StateOp ℚ)).foldl (Mem.step 5) Mem.init).view 1) 3 = 4 := by decide +kernel

end

/-! ## integration -/

section
variable {F : Type _} [Field F] [LinearOrder F] [IsStrictOrderedRing F]

/-- times a simulation gives: from zero, forward, or back to a time after the last accepted one -/
inductive Reach (K : ℕ) : Clock F → Prop
  | first (t : F) (h : 0 < t) (dt : F) : Reach K (Clock.step K ⟨fun _ => 0, dt⟩ (.advance t))
  | advance (c : Clock F) (t : F) (hc : Reach K c) (h : c.time 0 < t) : Reach K (c.step K (.advance t))
  | regress (c : Clock F) (t : F) (hc : Reach K c) (h : c.time 1 < t) : Reach K (c.step K (.regress t))

theorem reach_inv (K : ℕ) (hK : 3 ≤ K) (c : Clock F) (h : Reach K c) :
    c.dt = c.time 0 - c.time 1 ∧ 0 ≤ c.time 1 ∧ c.time 1 < c.time 0 ∧ (c.time 1 = c.time 2 → c.time 1 = 0) := by
  induction h with
  | first t h dt =>
    have h1 : 1 < K := by omega
    have h2 : 2 < K := by omega
    simp [Clock.step, h1, h]
  | advance c t hc h ih =>
    have h1 : 1 < K := by omega
    have h2 : 2 < K := by omega
    obtain ⟨_, a, b, _⟩ := ih
    refine ⟨rfl, ?_, ?_, ?_⟩
    · simp only [Clock.step, one_ne_zero, if_false, h1, if_true, Nat.sub_self]; linarith
    · simpa [Clock.step, h1] using h
    · simp only [Clock.step, one_ne_zero, if_false, h1, if_true, Nat.sub_self, h2, (by decide : (2 : ℕ) ≠ 0), (by decide : 2 - 1 = 1)]
      intro e; exact absurd e (ne_of_gt b)
  | regress c t hc h ih =>
    obtain ⟨_, a, b, d⟩ := ih
    refine ⟨rfl, by simpa [Clock.step] using a, by simpa [Clock.step] using h, by simpa [Clock.step] using d⟩

/-- **C93**: what a device from Spice gets for a charge `q` and its slope `cap`, at any time a simulation reaches.  At the first step, and with
every method but trapezoidal, the current is the charge moved over the step, by the step (Euler); later, with trapezoidal, its mean with the
one before is.  The slope fits that current, the offset makes up the rest (`i = geq·v + ceq` for `q = cap·v`), and the current is kept for the
next step. -/
theorem spice_integrate (K : ℕ) (hK : 3 ≤ K) (c : Clock F) (h : Reach K c) (m : Method) (states : ℕ → ℕ → F) (cap : F) (qcap : ℕ) :
    let r := niIntegrate .dynamic c.dt c.time m states cap qcap
    let trap := m = .trap ∧ c.time 1 ≠ 0
    (¬trap → r.2.2 * (c.time 0 - c.time 1) = states 0 qcap - states 1 qcap ∧ r.1 * (c.time 0 - c.time 1) = cap) ∧
    (trap → (r.2.2 + states 1 (qcap + 1)) / 2 * (c.time 0 - c.time 1) = states 0 qcap - states 1 qcap ∧
      r.1 * (c.time 0 - c.time 1) = 2 * cap) ∧
    (∀ v, states 0 qcap = cap * v → r.1 * v + r.2.1 = r.2.2) := by
  obtain ⟨hdt, h1, h2, h3⟩ := reach_inv K hK c h
  have hpos : c.time 0 - c.time 1 ≠ 0 := by intro e; linarith
  intro r trap
  have hr : r = niIntegrate .dynamic c.dt c.time m states cap qcap := rfl
  rw [hdt] at hr
  by_cases ht : trap
  · have hag : ag (c.time 0 - c.time 1) c.time m = (2 / (c.time 0 - c.time 1), 1, 2) := by
      simp only [ag]; rw [if_neg hpos, if_pos ⟨ht.2, ht.1⟩]
    have hu : usedMethod c.time .trap = .trap := by
      simp only [usedMethod]; rw [if_neg fun e => ht.2 (h3 e)]
    have e : r = (cap * 2 / (c.time 0 - c.time 1), 2 * (states 0 qcap - states 1 qcap) / (c.time 0 - c.time 1) - states 1 (qcap + 1) -
        states 0 qcap * (2 / (c.time 0 - c.time 1)), 2 * (states 0 qcap - states 1 qcap) / (c.time 0 - c.time 1) - states 1 (qcap + 1)) := by
      rw [hr]; simp only [niIntegrate, hag, (by decide : ¬(2 : ℕ) = 1), if_false, differentiate, hu]
    refine ⟨fun h => absurd ht h, fun _ => ⟨?_, ?_⟩, ?_⟩
    · rw [e]; field_simp; ring
    · rw [e]; field_simp
    · intro v hv; rw [e]; simp only [hv]; field_simp; ring
  · have hag : ag (c.time 0 - c.time 1) c.time m = (1 / (c.time 0 - c.time 1), -1 / (c.time 0 - c.time 1), 1) := by
      simp only [ag]; rw [if_neg hpos, if_neg fun h => ht ⟨h.2, h.1⟩]
    have hu : usedMethod c.time .euler = .euler := by simp [usedMethod]
    have e : r = (cap / (c.time 0 - c.time 1), (states 0 qcap - states 1 qcap) / (c.time 0 - c.time 1) -
        states 0 qcap * (1 / (c.time 0 - c.time 1)), (states 0 qcap - states 1 qcap) / (c.time 0 - c.time 1)) := by
      rw [hr]; simp only [niIntegrate, hag, if_true, differentiate, hu]
    refine ⟨fun _ => ⟨?_, ?_⟩, fun h => absurd h ht, ?_⟩
    · rw [e]; field_simp
    · rw [e]; field_simp
    · intro v hv; rw [e]; simp only [hv]; field_simp; ring

/-- **C93, fails**: with Gear asked for, a device from Spice is integrated with Euler, unlike gnucap's own capacitors -/
theorem spice_gear_wrong : ∃ (c : Clock ℚ) (states : ℕ → ℕ → ℚ), Reach 5 c ∧
    (niIntegrate .dynamic c.dt c.time .gear states 1 0).2.2 ≠
      (differentiate .dynamic (fun k => ⟨0, states k 0, 1⟩) (fun k => ⟨0, states k 1, 1⟩) c.time .gear).f0 ∧
    (∀ k, states k 0 = c.time k ^ 2) ∧ (niIntegrate .dynamic c.dt c.time .gear states 1 0).2.2 = 3 ∧
    (differentiate .dynamic (fun k => ⟨0, states k 0, 1⟩) (fun k => ⟨0, states k 1, 1⟩) c.time .gear).f0 = 2 * c.time 0 := by
  let c : Clock ℚ := Clock.step 5 (Clock.step 5 ⟨fun _ => 0, 0⟩ (.advance 1)) (.advance 2)
  have hc : Reach 5 c := .advance _ 2 (.first 1 (by norm_num) 0) (by simp [Clock.step])
  refine ⟨c, fun k i => if i = 0 then c.time k ^ 2 else 0, hc, by decide +kernel, by simp, by decide +kernel, by decide +kernel⟩

example : ∃ c : Clock ℚ, Reach 5 c ∧ c.time 1 ≠ 0 :=
  ⟨_, .advance _ 2 (.first 1 (by norm_num) 0) (by simp [Clock.step]), by simp [Clock.step]⟩

/-! ## converged, loaded, skipped -/

theorem allOk_iff {α : Type} (p : α → Bool) (l : List α) (c : Bool) : allOk p l c = true ↔ c = true ∧ ∀ x ∈ l, p x = true := by
  unfold allOk
  induction l generalizing c with
  | nil => simp
  | cons a t ih => rw [List.foldl_cons, ih]; simp [and_assoc]

theorem conchk_iff (o n a r : F) : conchk o n a r = true ↔ |n - o| ≤ r * |n| + a := by simp [conchk]

/-- new values of a device against the loaded ones, all entries -/
def Near (s : Shape) (d : Dev F) (a r : F) : Prop :=
  (∀ k : ℕ, k ≤ s.mat → |d.i1 k - d.i0 k| ≤ r * |d.i1 k| + a) ∧
  ∀ i j : ℕ, i ≤ s.mat → j ≤ s.mat → |d.m1 i j - d.m0 i j| ≤ r * |d.m1 i j| + a

/-- **C93**: a device from Spice has converged exactly if neither its evaluation nor its own test counted anything, every state is where it was
at the evaluation before, and every current and conductance is where it is loaded, within the tolerances. -/
theorem spice_converged (o : Tol F) (s : Shape) (ns noncon : ℕ) (test : Option ℕ) (d : Dev F) (st0 st1 : ℕ → F) :
    converged o s ns noncon test d st0 st1 = true ↔
      noncon = 0 ∧ (∀ n, test = some n → n = 0) ∧ (∀ k < ns, |st1 k - st0 k| ≤ o.reltol * |st1 k| + o.abstol) ∧ Near s d o.abstol o.reltol := by
  have hc : converged o s ns noncon test d st0 st1 = true ↔
      allOk (fun p : ℤ × ℤ => conchk (d.m0 p.1 p.2) (d.m1 p.1 p.2) o.abstol o.reltol)
        (((List.range (s.mat + 1)).map (fun k : ℕ => (k : ℤ))).flatMap fun i => ((List.range (s.mat + 1)).map (fun k : ℕ => (k : ℤ))).map fun j => (i, j))
        (allOk (fun k => conchk (d.i0 k) (d.i1 k) o.abstol o.reltol) ((List.range (s.mat + 1)).map (fun k : ℕ => (k : ℤ)))
          (allOk (fun k => conchk (st0 k) (st1 k) o.abstol o.reltol) (List.range ns) (decide (noncon = 0)))) = true ∧
      ∀ n, test = some n → n = 0 := by
    unfold converged
    simp only
    generalize allOk (fun p : ℤ × ℤ => conchk (d.m0 p.1 p.2) (d.m1 p.1 p.2) o.abstol o.reltol) _ _ = b
    rcases b with _ | _ <;> rcases test with _ | n <;> simp
  rw [hc, allOk_iff, allOk_iff, allOk_iff]
  simp only [decide_eq_true_eq, conchk_iff, List.mem_range, List.mem_map, List.mem_flatMap, forall_exists_index, and_imp,
    forall_apply_eq_imp_iff₂, Nat.lt_succ_iff]
  constructor
  · rintro ⟨⟨⟨⟨a, b⟩, c⟩, e⟩, f⟩
    refine ⟨a, f, b, c, fun i j hi hj => ?_⟩
    exact e ((i : ℤ), (j : ℤ)) i hi j hj rfl
  · rintro ⟨a, f, b, c, e⟩
    refine ⟨⟨⟨⟨a, b⟩, c⟩, ?_⟩, f⟩
    rintro p i hi j hj rfl
    exact e i j hi hj

/-- **C93**: a device that is not queued for loading has converged, and nothing it computed differs from what is loaded by more than
`reltol·loadtol` of it; one that has not converged, or differs somewhere, is queued. -/
theorem spice_queued (o : Tol F) (s : Shape) (conv : Bool) (d : Dev F) :
    needsLoad o s conv d = false ↔ conv = true ∧ Near s d 0 (o.reltol * o.loadtol) := by
  unfold needsLoad
  simp only [Bool.not_eq_false', allOk_iff]
  simp only [conchk_iff, List.mem_range, List.mem_map, List.mem_flatMap, forall_exists_index, and_imp, forall_apply_eq_imp_iff₂,
    Nat.lt_succ_iff]
  constructor
  · rintro ⟨⟨a, c⟩, e⟩
    refine ⟨a, c, fun i j hi hj => ?_⟩
    exact e ((i : ℤ), (j : ℤ)) i hi j hj rfl
  · rintro ⟨a, c, e⟩
    refine ⟨⟨a, c⟩, ?_⟩
    rintro p i hi j hj rfl
    exact e i j hi hj

theorem skipped_of (o : Tol F) (s : Shape) (wires : ℕ → Option Circ) (node : ℕ → ℤ) (φ : ℤ → Circ) (hw : Wired s wires node φ) (q : Asked)
    (v1 : ℤ → F) (v : Circ → F) (h : needsEval o s wires node q v1 v = false) (hq : q.queued = false) :
    q.conv = true ∧ q.advance = false ∧ q.startup = false ∧
    (∀ r, InUse s node r → |v (φ r) - v1 r| ≤ o.reltol * o.bypasstol * |v (φ r)|) ∧
    ∀ ii < s.mat, ∀ jj < ii, node ii ≠ 0 → node jj ≠ 0 →
      |v (φ (node ii)) - v (φ (node jj)) - (v1 (node ii) - v1 (node jj))| ≤
        o.reltol * o.bypasstol * |v (φ (node ii)) - v (φ (node jj))| := by
  have now : ∀ ii < s.mat, node ii ≠ 0 → ((wires ii).map v).getD 0 = v (φ (node ii)) := by
    intro ii hi h0; rw [(hw.ok ii hi h0).2]; rfl
  unfold needsEval at h
  simp only [hq, Bool.false_eq_true, if_false] at h
  rcases hc : q.conv with _ | _ <;> simp only [hc, Bool.not_true, Bool.not_false, Bool.false_eq_true, if_true, if_false] at h
  · exact absurd h (by decide)
  rcases ha : q.advance with _ | _ <;> simp only [ha, Bool.false_eq_true, if_true, if_false] at h
  swap
  · exact absurd h (by decide)
  rcases hs : q.startup with _ | _ <;> simp only [hs, Bool.false_eq_true, if_true, if_false] at h
  swap
  · exact absurd h (by decide)
  rw [Bool.or_eq_false_iff, List.any_eq_false, List.any_eq_false] at h
  refine ⟨rfl, rfl, rfl, ?_, ?_⟩
  · rintro r ⟨h0, ii, hi, rfl⟩
    have := h.1 ii (by simpa using hi)
    simp only [h0, ne_eq, not_false_eq_true, decide_true, Bool.true_and, Bool.not_eq_true', Bool.not_eq_false, conchk_iff, add_zero,
      now ii hi h0] at this
    exact this
  · intro ii hi jj hj h0 h1
    have := h.2 ii (by simpa using hi)
    rw [List.any_eq_true] at this
    push Not at this
    have := this jj (by simpa using hj)
    simp only [h0, h1, ne_eq, not_false_eq_true, decide_true, Bool.true_and, Bool.not_eq_true', Bool.not_eq_false, conchk_iff, add_zero,
      now ii hi h0, now jj (by omega) h1] at this
    exact this

/-- **C93**: an evaluation is skipped only for a device that is queued already, or that has converged, is not at a new time nor at the start,
and whose voltages, each by itself and between any two of its slots, are where the device read them, within `reltol·bypasstol`. -/
theorem spice_skipped (o : Tol F) (s : Shape) (ext : ℕ → Option ℕ) (ops : List SetupOp) (hp : Proper s ops) :
    ∃ φ : ℤ → Circ, Seats s ext (setup s ops).node φ ∧
      ∀ (q : Asked) (v1 : ℤ → F) (v : Circ → F),
        needsEval o s (wire s ext (setup s ops).node) (setup s ops).node q v1 v = false → q.queued = false →
        q.conv = true ∧ q.advance = false ∧ q.startup = false ∧
        (∀ r, InUse s (setup s ops).node r → |v (φ r) - v1 r| ≤ o.reltol * o.bypasstol * |v (φ r)|) ∧
        ∀ ii < s.mat, ∀ jj < ii, (setup s ops).node ii ≠ 0 → (setup s ops).node jj ≠ 0 →
          |v (φ ((setup s ops).node ii)) - v (φ ((setup s ops).node jj)) - (v1 ((setup s ops).node ii) - v1 ((setup s ops).node jj))| ≤
            o.reltol * o.bypasstol * |v (φ ((setup s ops).node ii)) - v (φ ((setup s ops).node jj))| := by
  obtain ⟨W, S⟩ := wired s ext ops hp
  exact ⟨_, S, fun q v1 v h hq => skipped_of o s _ _ _ W q v1 v h hq⟩

/-- a device of two slots at 1 and 2 V that moved by less than a thousandth is skipped, by more is not -/
example :
    let n := (setup demoShape demoOps).node
    let w := wire demoShape (fun k => some (k + 7)) n
    let o : Tol ℚ := ⟨0, 1 / 100, 1 / 10, 1 / 10⟩
    let v : Circ → ℚ := fun c => match c with | .gnd => 0 | .outer k => k | .inner _ => 3
    let old (e : ℚ) : ℤ → ℚ := fun r => if r = 1 then 7 + e else if r = 2 then 8 else if r = 4 then 3 else 0
    needsEval o demoShape w n ⟨false, true, false, false⟩ (old (1 / 2000)) v = false ∧
    needsEval o demoShape w n ⟨false, true, false, false⟩ (old (1 / 100)) v = true := by decide +kernel

end

/-! ## parameters -/

/-- **C93**: a real parameter reaches the device within half a unit of the 15th digit (14th outside 1f to 1T), whatever its size, either unit
system. -/
theorem spice_real (u : Num.Units) (x : ℚ) (h1 : 1 / 10 ^ 99 ≤ |x|) (h2 : |x| < Num.bigbig) :
    ∃ (y : ℚ) (m : ℤ) (D : ℕ), give u .real x = .real y ∧ (10 : ℚ) ^ (m - 1) ≤ |x| ∧ |x| < (10 : ℚ) ^ m ∧
      |y - x| ≤ 1 / 2 * (10 : ℚ) ^ (m - D) ∧ 14 ≤ D := by
  obtain ⟨t, y, m, D, e, r, a, b, c, _, d, _⟩ := Num.ftos_roundtrip_partial x 0 15 ⟨false, false, false⟩ (by decide) h1 h2
  refine ⟨y, m, D, ?_, a, b, c, by omega⟩
  simp only [give, e, r u]

theorem given_small : ∀ k : Fin 1000, give .spice .integer (((k : ℕ) : ℤ) : ℚ) = .int ((k : ℕ) : ℤ) ∧
    give .spice .integer ((-((k : ℕ) : ℤ) : ℤ) : ℚ) = .int (-((k : ℕ) : ℤ)) := by
  decide +kernel

/-- **C93** (partial: up to 999; larger ones are misread, see `spice_int_wrong`): an integer parameter reaches the device -/
theorem spice_int_partial (u : Num.Units) (n : ℤ) (h1 : -1000 < n) (h2 : n < 1000) : give u .integer n = .int n := by
  have hu : give u .integer n = give .spice .integer n := rfl
  rw [hu]
  obtain ⟨k, hk⟩ : ∃ k : ℕ, k = n.natAbs := ⟨_, rfl⟩
  have hb : k < 1000 := by omega
  have := given_small ⟨k, hb⟩
  generalize give .spice .integer = f at this ⊢
  rcases Int.natAbs_eq n with h | h
  · rw [h, ← hk]; exact this.1
  · rw [h, ← hk]; exact this.2

/-- **C93, fails**: an integer parameter of a thousand is printed as `1.K` and read as 1 -/
theorem spice_int_wrong : ∀ u, give u .integer 1000 = .int 1 ∧ give u .integer 2500 = .int 2 := by
  intro u; cases u <;> exact ⟨by decide +kernel, by decide +kernel⟩

/-- **C93, fails**: a flag is set by any value, also by 0: `off=0` is off -/
theorem spice_flag_wrong : ∀ u, give u .flag 0 = .int 1 ∧ give u .flag 1 = .int 1 := by
  intro u; cases u <;> exact ⟨by decide +kernel, by decide +kernel⟩

end Gnucap.SpiceWrap
