/-!
# Loop combinators shared by the model

C++ `for` loops are transcribed with these two combinators so that the order of the updates is the
order of the source.
-/
namespace Gnucap

/-- `for (int i = lo; i < hi; ++i) s = f(i, s);`  (C++ counting loop, not tied to a particular file). -/
def forUp {σ : Type _} (f : Nat → σ → σ) (lo : Nat) : (len : Nat) → σ → σ
  | 0, s => s
  | len + 1, s => f (lo + len) (forUp f lo len s)

/-- `for (int i = lo; i < hi; ++i)` given by its bounds; no iteration when `hi ≤ lo`. -/
def forRange {σ : Type _} (lo hi : Nat) (f : Nat → σ → σ) (s : σ) : σ := forUp f lo (hi - lo) s

/-- `for (int j = n; j > 1; --j) s = f(j, s);` (the counting-down loops of `m_matrix.h:824,867,899`). -/
def forDownTo2 {σ : Type _} (f : Nat → σ → σ) : Nat → σ → σ
  | 0, s => s
  | 1, s => s
  | (k + 2), s => forDownTo2 f (k + 1) (f (k + 2) s)

/-- Invariant rule for `forRange`. -/
theorem forRange_inv {σ : Type _} (P : Nat → σ → Prop) {lo hi : Nat} {f : Nat → σ → σ} {s : σ}
    (hle : lo ≤ hi) (h0 : P lo s)
    (hstep : ∀ i t, lo ≤ i → i < hi → P i t → P (i + 1) (f i t)) :
    P hi (forRange lo hi f s) := by
  have key : ∀ len, lo + len ≤ hi → P (lo + len) (forUp f lo len s) := by
    intro len
    induction len with
    | zero => intro _; simpa [forUp] using h0
    | succ k ih =>
      intro hk
      have := hstep (lo + k) (forUp f lo k s) (by omega) (by omega) (ih (by omega))
      simpa [forUp, Nat.add_assoc] using this
  have := key (hi - lo) (by omega)
  have e : lo + (hi - lo) = hi := by omega
  rw [e] at this
  exact this

/-- Invariant rule for `forDownTo2`; `P j s` = "everything above `j` has been processed". -/
theorem forDownTo2_inv {σ : Type _} (P : Nat → σ → Prop) {f : Nat → σ → σ} :
    ∀ (n : Nat) (s : σ), P n s → (∀ j t, 1 < j → j ≤ n → P j t → P (j - 1) (f j t)) →
    P (min n 1) (forDownTo2 f n s)
  | 0, s, h, _ => by simpa [forDownTo2] using h
  | 1, s, h, _ => by simpa [forDownTo2] using h
  | (k + 2), s, h, hs => by
    have h1 := hs (k + 2) s (by omega) (by omega) h
    have := forDownTo2_inv P (k + 1) (f (k + 2) s) (by simpa using h1)
      (fun j t hj hjn hp => hs j t hj (by omega) hp)
    simpa [forDownTo2] using this

/-- `for (int i = lo+len-1; i >= lo; --i) s = f(i, s);`  (C++ loop counting down) -/
def forDown {σ : Type _} (f : Nat → σ → σ) (lo : Nat) : (len : Nat) → σ → σ
  | 0, s => s
  | len + 1, s => forDown f lo len (f (lo + len) s)

/-- Invariant rule for `forDown`; `P k s` = "the indices from `lo + k` up have been processed". -/
theorem forDown_inv {σ : Type _} (P : Nat → σ → Prop) {f : Nat → σ → σ} {lo : Nat} :
    ∀ (len : Nat) (s : σ), P len s → (∀ k t, k < len → P (k + 1) t → P k (f (lo + k) t)) → P 0 (forDown f lo len s)
  | 0, s, h, _ => by simpa [forDown] using h
  | len + 1, s, h, hs => by
    have h1 := hs len s (by omega) h
    simpa [forDown] using forDown_inv P len (f (lo + len) s) h1 (fun k t hk hp => hs k t (by omega) hp)

end Gnucap
