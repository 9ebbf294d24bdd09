import Mathlib.Algebra.BigOperators.Ring.Finset
import Mathlib.LinearAlgebra.Matrix.Block
import Mathlib.Tactic.Ring
import Mathlib.Tactic.FieldSimp
import Verif.MatrixLemmas

/-!
# Helper lemmas: in-place decomposition and substitution loops (not property statements)
-/
set_option linter.unusedSectionVars false
namespace Gnucap

theorem forRange_congr {σ : Type _} (P : ℕ → σ → Prop) {lo hi : ℕ} {f g : ℕ → σ → σ} {s : σ}
    (hle : lo ≤ hi) (h0 : P lo s)
    (hstep : ∀ i t, lo ≤ i → i < hi → P i t → P (i + 1) (f i t) ∧ f i t = g i t) :
    forRange lo hi f s = forRange lo hi g s := by
  have key : ∀ len, lo + len ≤ hi → P (lo + len) (forUp f lo len s) ∧ forUp f lo len s = forUp g lo len s := by
    intro len
    induction len with
    | zero => intro _; exact ⟨by simpa [forUp] using h0, rfl⟩
    | succ k ih =>
      intro hk
      obtain ⟨h1, h2⟩ := ih (by omega)
      have := hstep (lo + k) (forUp f lo k s) (by omega) (by omega) h1
      refine ⟨by simpa [forUp, Nat.add_assoc] using this.1, ?_⟩
      rw [forUp, forUp, this.2, h2]
  exact (key (hi - lo) (by omega)).2

namespace Mat

variable {F : Type _} [Field F] [DecidableEq F]

theorem inplaceStep_eq_copyStep (low : ℕ → ℕ) (minp : F) (mm : ℕ) (acx : Arr F) :
    inplaceStep low minp mm acx = copyStep low minp acx mm acx := by
  by_cases hb : low mm < mm
  · simp only [inplaceStep, copyStep, hb, if_true]
    set lu1 := acx.set (low mm) mm (acx (low mm) mm / acx (low mm) (low mm)) with hlu1
    -- the first loop
    have e1 : forRange (low mm + 1) mm
        (fun ii (acx : Arr F) => acx.set ii mm ((acx ii mm - dot low acx ii mm ii) / acx ii ii)) lu1 =
        forRange (low mm + 1) mm
        (fun ii (lu : Arr F) => lu.set ii mm ((acx ii mm - dot low lu ii mm ii) / lu ii ii)) lu1 := by
      apply forRange_congr (P := fun i (t : Arr F) => ∀ p q, (q ≠ mm ∨ i ≤ p) → t p q = acx p q) (by omega)
      · intro p q h; rw [hlu1, set_ne (by omega)]
      · intro i t h1 h2 hp
        constructor
        · intro p q h; rw [set_ne (by omega)]; exact hp p q (by omega)
        · rw [hp i mm (by omega)]
    rw [e1]
    set lu2 := forRange (low mm + 1) mm
      (fun ii (lu : Arr F) => lu.set ii mm ((acx ii mm - dot low lu ii mm ii) / lu ii ii)) lu1 with hlu2
    have hf2 : ∀ p q, (q ≠ mm ∨ mm ≤ p) → lu2 p q = acx p q := by
      apply forRange_inv (P := fun i (t : Arr F) => ∀ p q, (q ≠ mm ∨ i ≤ p) → t p q = acx p q) (by omega)
      · intro p q h; rw [hlu1, set_ne (by omega)]
      · intro i t h1 h2 hp p q h; rw [set_ne (by omega)]; exact hp p q (by omega)
    have e3 : lu2.set mm (low mm) (acx mm (low mm)) = lu2 := by
      funext p q
      by_cases h : p = mm ∧ q = low mm
      · obtain ⟨rfl, rfl⟩ := h; rw [set_eq, hf2 _ _ (by omega)]
      · exact set_ne h
    rw [e3]
    have e4 : forRange (low mm + 1) mm
        (fun jj (acx : Arr F) => acx.set mm jj (acx mm jj - dot low acx mm jj jj)) lu2 =
        forRange (low mm + 1) mm
        (fun jj (lu : Arr F) => lu.set mm jj (acx mm jj - dot low lu mm jj jj)) lu2 := by
      apply forRange_congr (P := fun i (t : Arr F) => ∀ q, i ≤ q → t mm q = acx mm q) (by omega)
      · intro q h; exact hf2 _ _ (by omega)
      · intro i t h1 h2 hp
        constructor
        · intro q h; rw [set_ne (by omega)]; exact hp q (by omega)
        · rw [hp i (by omega)]
    rw [e4]
    set lu4 := forRange (low mm + 1) mm
      (fun jj (lu : Arr F) => lu.set mm jj (acx mm jj - dot low lu mm jj jj)) lu2 with hlu4
    have hf4 : lu4 mm mm = acx mm mm := by
      have := forRange_inv (P := fun i (t : Arr F) => ∀ q, i ≤ q → t mm q = acx mm q)
        (lo := low mm + 1) (hi := mm)
        (f := fun jj (lu : Arr F) => lu.set mm jj (acx mm jj - dot low lu mm jj jj)) (s := lu2) (by omega)
        (by intro q h; exact hf2 _ _ (by omega))
        (by intro i t h1 h2 hp q h; rw [set_ne (by omega)]; exact hp q (by omega))
      exact this mm (le_refl _)
    rw [hf4]
  · simp only [inplaceStep, copyStep, hb, if_false]

theorem luInplace_spec (n : ℕ) (low : ℕ → ℕ) (minp : F) (a : Arr F) (wf : WF n low) :
    ∀ m, 1 ≤ m → m ≤ n → EqAt low minp a (luInplace n low minp a) m := by
  have key := forRange_inv
    (P := fun i (s : Arr F) =>
      (∀ m, 1 ≤ m → m < i → EqAt low minp a s m) ∧ (∀ p q, i ≤ max p q → s p q = a p q))
    (lo := 1) (hi := n + 1) (f := inplaceStep low minp) (s := a)
    (by omega) ⟨fun m h1 h2 => by omega, fun _ _ _ => rfl⟩ ?_
  · exact fun m h1 h2 => key.1 m h1 (by omega)
  · intro i s hi1 hi2 ⟨hE, hF⟩
    have hw := wf i hi1 (by omega)
    rw [inplaceStep_eq_copyStep]
    obtain ⟨he, hf⟩ := copyStep_spec low minp s s i hw.2
    constructor
    · intro m h1 h2
      by_cases hm : m = i
      · subst hm
        exact he.congr hw.2 (fun _ _ _ _ => rfl) (fun p q h3 _ => (hF p q (by omega)).symm)
      · have hwm := wf m h1 (by omega)
        exact (hE m h1 (by omega)).congr hwm.2 (fun p q _ h4 => hf p q (by omega)) (fun _ _ _ _ => rfl)
    · intro p q h
      rw [hf p q (by omega)]; exact hF p q (by omega)

/-! ### vectors -/

theorem vset_eq {v : ℕ → F} {i : ℕ} {x : F} : vset v i x i = x := by simp [vset]
theorem vset_ne {v : ℕ → F} {i j : ℕ} {x : F} (h : j ≠ i) : vset v i x j = v j := by simp [vset, h]

/-- row-oriented inner loop -/
theorem rowLoop (g : ℕ → F) (lo hi ii : ℕ) (v : ℕ → F) (h : hi ≤ ii) (hlo : lo ≤ hi) :
    forRange lo hi (fun jj v => vset v ii (v ii - g jj * v jj)) v =
      vset v ii (v ii - ∑ k ∈ Finset.Ico lo hi, g k * v k) := by
  have := forRange_inv
    (P := fun i t => t = vset v ii (v ii - ∑ k ∈ Finset.Ico lo i, g k * v k))
    (f := fun jj v => vset v ii (v ii - g jj * v jj)) (s := v) hlo
    (by funext j; by_cases hj : j = ii <;> simp [vset, hj])
    (by
      intro i t h1 h2 ht
      subst ht
      funext j
      by_cases hj : j = ii
      · subst hj
        rw [vset_eq, vset_eq, vset_eq, vset_ne (by omega), Finset.sum_Ico_succ_top h1]; ring
      · rw [vset_ne hj, vset_ne hj, vset_ne hj])
  exact this

/-- column-oriented inner loop -/
theorem colLoop (g : ℕ → F) (lo hi jj : ℕ) (v : ℕ → F) (h : hi ≤ jj) (hlo : lo ≤ hi) :
    forRange lo hi (fun ii v => vset v ii (v ii - g ii * v jj)) v =
      fun i => if lo ≤ i ∧ i < hi then v i - g i * v jj else v i := by
  have := forRange_inv
    (P := fun m t => t = fun i => if lo ≤ i ∧ i < m then v i - g i * v jj else v i)
    (f := fun ii v => vset v ii (v ii - g ii * v jj)) (s := v) hlo
    (by funext i; rw [if_neg (by omega)])
    (by
      intro m t h1 h2 ht
      subst ht
      funext i
      by_cases hi : i = m
      · subst hi
        rw [vset_eq]
        simp only []
        rw [if_neg (by omega), if_neg (by omega), if_pos (by omega)]
      · rw [vset_ne hi]
        by_cases h3 : lo ≤ i ∧ i < m
        · rw [if_pos h3, if_pos (by omega)]
        · rw [if_neg h3, if_neg (by omega)])
  exact this

theorem fwdSub_spec (n : ℕ) (low : ℕ → ℕ) (lu : Arr F) (v : ℕ → F) (wf : WF n low) :
    (∀ i, 1 ≤ i → i ≤ n → fwdSub n low lu v i =
      (v i - ∑ k ∈ Finset.Ico (low i) i, lu i k * fwdSub n low lu v k) / lu i i) ∧
    (∀ i, (i = 0 ∨ n < i) → fwdSub n low lu v i = v i) := by
  have key := forRange_inv
    (P := fun m (t : ℕ → F) =>
      (∀ i, 1 ≤ i → i < m → t i = (v i - ∑ k ∈ Finset.Ico (low i) i, lu i k * t k) / lu i i) ∧
      (∀ i, (i = 0 ∨ m ≤ i) → t i = v i))
    (lo := 1) (hi := n + 1)
    (f := fun ii v =>
      let v := forRange (low ii) ii (fun jj v => vset v ii (v ii - lu ii jj * v jj)) v
      vset v ii (v ii / lu ii ii)) (s := v) (by omega)
    ⟨fun i h1 h2 => by omega, fun _ _ => rfl⟩ ?_
  · exact ⟨fun i h1 h2 => key.1 i h1 (by omega), fun i h => key.2 i (by omega)⟩
  · intro m t h1 h2 ⟨ha, hb⟩
    have hw := wf m h1 (by omega)
    simp only []
    rw [rowLoop (fun jj => lu m jj) (low m) m m t (le_refl _) hw.2]
    refine ⟨?_, ?_⟩
    · intro i h3 h4
      by_cases hi : i = m
      · subst hi
        rw [vset_eq, vset_eq, hb i (by omega)]
        congr 2
        apply Finset.sum_congr rfl
        intro k hk
        rw [Finset.mem_Ico] at hk
        rw [vset_ne (by omega), vset_ne (by omega)]
      · rw [vset_ne hi, vset_ne hi, ha i h3 (by omega)]
        congr 2
        apply Finset.sum_congr rfl
        intro k hk
        rw [Finset.mem_Ico] at hk
        rw [vset_ne (by omega), vset_ne (by omega)]
    · intro i h3
      rw [vset_ne (by omega), vset_ne (by omega)]; exact hb i (by omega)

/-- upper factor entry above the diagonal, zero outside the profile -/
def uOff (low : ℕ → ℕ) (lu : Arr F) (i j : ℕ) : F := if low j ≤ i then lu i j else 0

theorem backSub_spec (n : ℕ) (low : ℕ → ℕ) (lu : Arr F) (y : ℕ → F) (wf : WF n low) :
    (∀ i, 1 ≤ i → i ≤ n → backSub n low lu y i =
      y i - ∑ j ∈ Finset.Ioc i n, uOff low lu i j * backSub n low lu y j) ∧
    (∀ i, (i = 0 ∨ n < i) → backSub n low lu y i = y i) := by
  have key := forDownTo2_inv
    (P := fun m (t : ℕ → F) =>
      (∀ i, 1 ≤ i → i ≤ n → t i = y i - ∑ j ∈ Finset.Ioc (max i m) n, uOff low lu i j * t j) ∧
      (∀ i, (i = 0 ∨ n < i) → t i = y i))
    (f := fun jj v => forRange (low jj) jj (fun ii v => vset v ii (v ii - lu ii jj * v jj)) v) n y
    ⟨fun i h1 h2 => by rw [max_eq_right h2, Finset.Ioc_self]; simp, fun _ _ => rfl⟩ ?_
  · refine ⟨fun i h1 h2 => ?_, key.2⟩
    have := key.1 i h1 h2
    rw [show max i (min n 1) = i by omega] at this
    exact this
  · intro j t h1 h2 ⟨ha, hb⟩
    have hw := wf j (by omega) h2
    rw [colLoop (fun ii => lu ii j) (low j) j j t (le_refl _) hw.2]
    refine ⟨?_, ?_⟩
    · intro i h3 h4
      by_cases hij : i < j
      · rw [show max i (j - 1) = j - 1 by omega]
        have e : Finset.Ioc (j - 1) n = insert j (Finset.Ioc j n) := by
          ext k; simp only [Finset.mem_Ioc, Finset.mem_insert]; omega
        have hsum : ∑ k ∈ Finset.Ioc j n, uOff low lu i k *
              (if low j ≤ k ∧ k < j then t k - lu k j * t j else t k) =
            ∑ k ∈ Finset.Ioc j n, uOff low lu i k * t k := by
          apply Finset.sum_congr rfl
          intro k hk
          rw [Finset.mem_Ioc] at hk
          rw [if_neg (by omega)]
        rw [e, Finset.sum_insert (by simp), hsum]
        beta_reduce
        have hti := ha i h3 h4
        rw [show max i j = j by omega] at hti
        by_cases hl : low j ≤ i
        · rw [if_pos ⟨hl, hij⟩, hti, if_neg (by omega)]
          simp only [uOff, hl, if_true]; ring
        · rw [if_neg (by omega), hti]
          simp only [uOff, hl, if_false]; ring
      · beta_reduce
        rw [if_neg (by omega), ha i h3 h4, show max i (j - 1) = max i j by omega]
        congr 1
        apply Finset.sum_congr rfl
        intro k hk
        rw [Finset.mem_Ioc] at hk
        rw [if_neg (by omega)]
    · intro i h3
      beta_reduce
      rw [if_neg (by omega)]; exact hb i h3

/-! ### the product of the factors -/

/-- lower factor with its diagonal -/
def lfull (low : ℕ → ℕ) (lu : Arr F) (i k : ℕ) : F := if low i ≤ k ∧ k ≤ i then lu i k else 0
/-- unit upper factor -/
def ufull (low : ℕ → ℕ) (lu : Arr F) (k j : ℕ) : F :=
  if k = j then 1 else if low j ≤ k ∧ k < j then lu k j else 0

theorem dotLoop_eq_sum (lu : Arr F) (rr cc kk len : ℕ) :
    dotLoop lu rr cc kk len = ∑ k ∈ Finset.Ico kk (kk + len), lu rr k * lu k cc := by
  induction len with
  | zero => simp [dotLoop]
  | succ n ih => rw [dotLoop, ih, ← Nat.add_assoc, Finset.sum_Ico_succ_top (by omega)]

theorem dot_eq_sum (low : ℕ → ℕ) (lu : Arr F) (rr cc dd : ℕ) :
    dot low lu rr cc dd = ∑ k ∈ Finset.Ico (max (low rr) (low cc)) dd, lu rr k * lu k cc := by
  rw [dot, dotLoop_eq_sum]
  by_cases h : max (low rr) (low cc) ≤ dd
  · rw [Nat.add_sub_cancel' h]
  · rw [Finset.Ico_eq_empty (by omega), Finset.Ico_eq_empty (by omega)]

/-- the amount that the pivot test added to the diagonal -/
def pivotFix (low : ℕ → ℕ) (minp : F) (aa lu : Arr F) (i : ℕ) : F :=
  if aa i i - dot low lu i i i = 0 then minp else 0

theorem pivot_ne_zero {minp x : F} (h : minp ≠ 0) : pivot minp x ≠ 0 := by
  unfold pivot; split <;> assumption

theorem lu_product (n : ℕ) (low : ℕ → ℕ) (minp : F) (aa lu : Arr F) (wf : WF n low)
    (h : ∀ m, 1 ≤ m → m ≤ n → EqAt low minp aa lu m) (hp : ∀ m, 1 ≤ m → m < n → lu m m ≠ 0)
    (r c : ℕ) (hr1 : 1 ≤ r) (hr : r ≤ n) (hc1 : 1 ≤ c) (hc : c ≤ n) :
    ∑ k ∈ Finset.Icc 1 n, lfull low lu r k * ufull low lu k c =
      sget low aa r c + if r = c then pivotFix low minp aa lu r else 0 := by
  have hwr := wf r hr1 hr
  have hwc := wf c hc1 hc
  have hsub : ∀ (S : Finset ℕ), S ⊆ Finset.Icc 1 n →
      (∀ k ∈ Finset.Icc 1 n, k ∉ S → lfull low lu r k * ufull low lu k c = 0) →
      ∑ k ∈ Finset.Icc 1 n, lfull low lu r k * ufull low lu k c =
        ∑ k ∈ S, lfull low lu r k * ufull low lu k c :=
    fun S h1 h2 => (Finset.sum_subset h1 (by intro k hk hk'; exact h2 k hk hk')).symm
  rcases lt_trichotomy r c with hlt | heq | hgt
  · have hne : r ≠ c := by omega
    rw [if_neg hne, add_zero]
    have hsg : sget low aa r c = if r < low c then 0 else aa r c := by
      simp [sget, hne.symm, hlt]
    rw [hsg]
    by_cases hpr : r < low c
    · rw [if_pos hpr]
      apply Finset.sum_eq_zero
      intro k _
      by_cases hk : low r ≤ k ∧ k ≤ r
      · rw [ufull, if_neg (by omega), if_neg (by omega), mul_zero]
      · rw [lfull, if_neg hk, zero_mul]
    · rw [if_neg hpr]
      rw [hsub (Finset.Ico (max (low r) (low c)) (r + 1))
        (by intro k hk; simp only [Finset.mem_Ico, Finset.mem_Icc] at *; omega)
        (by
          intro k _ hk
          simp only [Finset.mem_Ico] at hk
          by_cases h1 : low r ≤ k ∧ k ≤ r
          · rw [ufull, if_neg (by omega), if_neg (by omega), mul_zero]
          · rw [lfull, if_neg h1, zero_mul])]
      rw [Finset.sum_Ico_succ_top (by omega)]
      have e1 : ∑ k ∈ Finset.Ico (max (low r) (low c)) r, lfull low lu r k * ufull low lu k c =
          dot low lu r c r := by
        rw [dot_eq_sum]
        apply Finset.sum_congr rfl
        intro k hk
        rw [Finset.mem_Ico] at hk
        rw [lfull, if_pos (by omega), ufull, if_neg (by omega), if_pos (by omega)]
      rw [e1, lfull, if_pos (by omega), ufull, if_neg hne, if_pos (by omega),
        (h c hc1 hc).upper r (by omega) hlt, mul_div_cancel₀ _ (hp r hr1 (by omega))]
      ring
  · subst heq
    rw [if_pos rfl]
    have hsg : sget low aa r r = aa r r := by simp [sget]
    rw [hsg, hsub (Finset.Ico (low r) (r + 1))
        (by intro k hk; simp only [Finset.mem_Ico, Finset.mem_Icc] at *; omega)
        (by
          intro k _ hk
          simp only [Finset.mem_Ico] at hk
          rw [lfull, if_neg (by omega), zero_mul])]
    rw [Finset.sum_Ico_succ_top (by omega)]
    have e1 : ∑ k ∈ Finset.Ico (low r) r, lfull low lu r k * ufull low lu k r = dot low lu r r r := by
      rw [dot_eq_sum, max_self]
      apply Finset.sum_congr rfl
      intro k hk
      rw [Finset.mem_Ico] at hk
      rw [lfull, if_pos (by omega), ufull, if_neg (by omega), if_pos (by omega)]
    rw [e1, lfull, if_pos (by omega), ufull, if_pos rfl, (h r hr1 hr).diag, pivotFix, pivot]
    split
    · rename_i h0
      have : aa r r = dot low lu r r r := sub_eq_zero.mp h0
      rw [this]; ring
    · ring
  · have hne : r ≠ c := by omega
    rw [if_neg hne, add_zero]
    have hsg : sget low aa r c = if c < low r then 0 else aa r c := by
      simp only [sget]; rw [if_neg (by omega), if_neg (by omega)]
    rw [hsg]
    by_cases hpr : c < low r
    · rw [if_pos hpr]
      apply Finset.sum_eq_zero
      intro k _
      by_cases hk : low r ≤ k ∧ k ≤ r
      · rw [ufull, if_neg (by omega), if_neg (by omega), mul_zero]
      · rw [lfull, if_neg hk, zero_mul]
    · rw [if_neg hpr]
      rw [hsub (Finset.Ico (max (low r) (low c)) (c + 1))
        (by intro k hk; simp only [Finset.mem_Ico, Finset.mem_Icc] at *; omega)
        (by
          intro k _ hk
          simp only [Finset.mem_Ico] at hk
          by_cases h1 : low r ≤ k ∧ k ≤ r
          · rw [ufull, if_neg (by omega), if_neg (by omega), mul_zero]
          · rw [lfull, if_neg h1, zero_mul])]
      rw [Finset.sum_Ico_succ_top (by omega)]
      have e1 : ∑ k ∈ Finset.Ico (max (low r) (low c)) c, lfull low lu r k * ufull low lu k c =
          dot low lu r c c := by
        rw [dot_eq_sum]
        apply Finset.sum_congr rfl
        intro k hk
        rw [Finset.mem_Ico] at hk
        rw [lfull, if_pos (by omega), ufull, if_neg (by omega), if_pos (by omega)]
      rw [e1, lfull, if_pos (by omega), ufull, if_pos rfl,
        (h r hr1 hr).lower c (by omega) hgt]
      ring

/-- forward result as the lower triangular system -/
theorem lower_system (n : ℕ) (low : ℕ → ℕ) (lu : Arr F) (wf : WF n low)
    (hp : ∀ m, 1 ≤ m → m ≤ n → lu m m ≠ 0) (b y : ℕ → F)
    (hy : ∀ i, 1 ≤ i → i ≤ n → y i = (b i - ∑ k ∈ Finset.Ico (low i) i, lu i k * y k) / lu i i)
    (r : ℕ) (hr1 : 1 ≤ r) (hr : r ≤ n) :
    ∑ k ∈ Finset.Icc 1 n, lfull low lu r k * y k = b r := by
  have hw := wf r hr1 hr
  have e : ∑ k ∈ Finset.Icc 1 n, lfull low lu r k * y k =
      ∑ k ∈ Finset.Ico (low r) (r + 1), lfull low lu r k * y k := by
    symm
    apply Finset.sum_subset
    · intro k hk; simp only [Finset.mem_Ico, Finset.mem_Icc] at *; omega
    · intro k _ hk
      simp only [Finset.mem_Ico] at hk
      rw [lfull, if_neg (by omega), zero_mul]
  rw [e, Finset.sum_Ico_succ_top (by omega)]
  have e1 : ∑ k ∈ Finset.Ico (low r) r, lfull low lu r k * y k =
      ∑ k ∈ Finset.Ico (low r) r, lu r k * y k := by
    apply Finset.sum_congr rfl
    intro k hk
    rw [Finset.mem_Ico] at hk
    rw [lfull, if_pos (by omega)]
  rw [e1, lfull, if_pos (by omega), hy r hr1 hr, mul_div_cancel₀ _ (hp r hr1 hr)]
  ring

/-- backward result as the upper triangular system -/
theorem upper_system (n : ℕ) (low : ℕ → ℕ) (lu : Arr F) (x y : ℕ → F)
    (hx : ∀ i, 1 ≤ i → i ≤ n → x i = y i - ∑ j ∈ Finset.Ioc i n, uOff low lu i j * x j)
    (r : ℕ) (hr1 : 1 ≤ r) (hr : r ≤ n) :
    ∑ c ∈ Finset.Icc 1 n, ufull low lu r c * x c = y r := by
  have e : ∑ k ∈ Finset.Icc 1 n, ufull low lu r k * x k =
      ∑ k ∈ insert r (Finset.Ioc r n), ufull low lu r k * x k := by
    symm
    apply Finset.sum_subset
    · intro k hk; simp only [Finset.mem_insert, Finset.mem_Ioc, Finset.mem_Icc] at *; omega
    · intro k _ hk
      simp only [Finset.mem_insert, Finset.mem_Ioc, Finset.mem_Icc] at *
      rw [ufull, if_neg (by omega), if_neg (by omega), zero_mul]
  rw [e, Finset.sum_insert (by simp)]
  have e1 : ∑ k ∈ Finset.Ioc r n, ufull low lu r k * x k = ∑ k ∈ Finset.Ioc r n, uOff low lu r k * x k := by
    apply Finset.sum_congr rfl
    intro k hk
    rw [Finset.mem_Ioc] at hk
    rw [ufull, if_neg (by omega), uOff]
    by_cases hl : low k ≤ r
    · rw [if_pos ⟨hl, by omega⟩, if_pos hl]
    · rw [if_neg (by omega), if_neg hl]
  rw [e1, ufull, if_pos rfl, hx r hr1 hr]; ring

/-- both triangular systems give the full one -/
theorem solve_of_triangular (n : ℕ) (low : ℕ → ℕ) (minp : F) (aa lu : Arr F) (wf : WF n low)
    (h : ∀ m, 1 ≤ m → m ≤ n → EqAt low minp aa lu m) (hp : ∀ m, 1 ≤ m → m ≤ n → lu m m ≠ 0)
    (b y x : ℕ → F)
    (hy : ∀ i, 1 ≤ i → i ≤ n → y i = (b i - ∑ k ∈ Finset.Ico (low i) i, lu i k * y k) / lu i i)
    (hx : ∀ i, 1 ≤ i → i ≤ n → x i = y i - ∑ j ∈ Finset.Ioc i n, uOff low lu i j * x j)
    (r : ℕ) (hr1 : 1 ≤ r) (hr : r ≤ n) :
    ∑ c ∈ Finset.Icc 1 n, (sget low aa r c + if r = c then pivotFix low minp aa lu r else 0) * x c = b r := by
  have e : ∀ c ∈ Finset.Icc 1 n, (sget low aa r c + if r = c then pivotFix low minp aa lu r else 0) * x c =
      ∑ k ∈ Finset.Icc 1 n, lfull low lu r k * (ufull low lu k c * x c) := by
    intro c hc
    rw [Finset.mem_Icc] at hc
    rw [← lu_product n low minp aa lu wf h (fun m h1 h2 => hp m h1 (by omega)) r c hr1 hr hc.1 hc.2, Finset.sum_mul]
    apply Finset.sum_congr rfl
    intros; ring
  rw [Finset.sum_congr rfl e, Finset.sum_comm]
  rw [← lower_system n low lu wf hp b y hy r hr1 hr]
  apply Finset.sum_congr rfl
  intro k hk
  rw [Finset.mem_Icc] at hk
  rw [← Finset.mul_sum, upper_system n low lu x y hx k hk.1 hk.2]

/-! ### the three argument forward substitution -/

theorem skipZeros_spec (n : ℕ) (b : ℕ → F) : ∀ (k : ℕ) (c : ℕ → F), k ≤ n →
    let r := skipZeros n b k c
    n + 1 - k ≤ r.1 ∧ r.1 ≤ n + 1 ∧
    (∀ i, n + 1 - k ≤ i → i < r.1 → b i = 0 ∧ r.2 i = 0) ∧
    (∀ i, (i < n + 1 - k ∨ r.1 ≤ i) → r.2 i = c i)
  | 0, c, _ => by
    unfold skipZeros
    exact ⟨by simp, by simp, fun i h1 h2 => by simp only at h2; omega, fun _ _ => rfl⟩
  | k + 1, c, hk => by
    by_cases hb : b (n + 1 - (k + 1)) ≠ 0
    · have e : skipZeros n b (k + 1) c = (n + 1 - (k + 1), c) := by
        rw [skipZeros, if_pos hb]
      rw [e]
      exact ⟨le_refl _, by simp only; omega, fun i h1 h2 => by simp only at h2; omega, fun _ _ => rfl⟩
    · have e : skipZeros n b (k + 1) c = skipZeros n b k (vset c (n + 1 - (k + 1)) 0) := by
        rw [skipZeros, if_neg hb]
      rw [e]
      rw [ne_eq, not_not] at hb
      obtain ⟨h1, h2, h3, h4⟩ := skipZeros_spec n b k (vset c (n + 1 - (k + 1)) 0) (by omega)
      refine ⟨by omega, h2, ?_, ?_⟩
      · intro i h5 h6
        by_cases hi : i = n + 1 - (k + 1)
        · subst hi
          refine ⟨hb, ?_⟩
          rw [h4 _ (by omega), vset_eq]
        · exact h3 i (by omega) h6
      · intro i h5
        rw [h4 i (by omega), vset_ne (by omega)]

theorem fwdSub3_spec (n : ℕ) (low : ℕ → ℕ) (lu : Arr F) (b c : ℕ → F) (wf : WF n low) :
    (∀ i, 1 ≤ i → i ≤ n → fwdSub3 n low lu b c i =
      (b i - ∑ k ∈ Finset.Ico (low i) i, lu i k * fwdSub3 n low lu b c k) / lu i i) ∧
    (∀ i, (i = 0 ∨ n < i) → fwdSub3 n low lu b c i = c i) := by
  obtain ⟨h1, h2, h3, h4⟩ := skipZeros_spec n b n c (le_refl _)
  rw [Nat.add_sub_cancel_left] at h1 h3 h4
  set fz := skipZeros n b n c with hfz
  have key := forRange_inv
    (P := fun m (t : ℕ → F) =>
      (∀ i, 1 ≤ i → i < fz.1 → t i = 0) ∧
      (∀ i, fz.1 ≤ i → i < m → t i = (b i - ∑ k ∈ Finset.Ico (max (low i) fz.1) i, lu i k * t k) / lu i i) ∧
      (∀ i, (i = 0 ∨ m ≤ i) → t i = c i))
    (lo := fz.1) (hi := n + 1)
    (f := fun ii c =>
      let c := vset c ii (b ii)
      let c := forRange (max (low ii) fz.1) ii (fun jj c => vset c ii (c ii - lu ii jj * c jj)) c
      vset c ii (c ii / lu ii ii)) (s := fz.2) h2
    ⟨fun i h5 h6 => (h3 i h5 h6).2, fun i h5 h6 => by omega, fun i h => h4 i (by omega)⟩ ?_
  · obtain ⟨ka, kb, kc⟩ := key
    have hdef : fwdSub3 n low lu b c = forRange fz.1 (n + 1) (fun ii c =>
      let c := vset c ii (b ii)
      let c := forRange (max (low ii) fz.1) ii (fun jj c => vset c ii (c ii - lu ii jj * c jj)) c
      vset c ii (c ii / lu ii ii)) fz.2 := rfl
    rw [hdef]
    refine ⟨?_, fun i h => kc i (by omega)⟩
    intro i hi1 hin
    have hw := wf i hi1 hin
    by_cases hi : i < fz.1
    · rw [ka i hi1 hi, (h3 i hi1 hi).1]
      rw [Finset.sum_eq_zero]
      · simp
      · intro k hk
        rw [Finset.mem_Ico] at hk
        rw [ka k (by omega) (by omega), mul_zero]
    · rw [kb i (by omega) (by omega)]
      congr 2
      apply Finset.sum_subset
      · intro k hk; simp only [Finset.mem_Ico] at *; omega
      · intro k hk hk'
        simp only [Finset.mem_Ico] at *
        rw [ka k (by omega) (by omega), mul_zero]
  · intro m t h5 h6 ⟨ka, kb, kc⟩
    simp only []
    have hw := wf m (by omega) (by omega)
    rw [rowLoop (fun jj => lu m jj) (max (low m) fz.1) m m _ (le_refl _) (by omega)]
    refine ⟨?_, ?_, ?_⟩
    · intro i h7 h8
      rw [vset_ne (by omega), vset_ne (by omega), vset_ne (by omega)]; exact ka i h7 h8
    · intro i h7 h8
      by_cases hi : i = m
      · subst hi
        rw [vset_eq, vset_eq, vset_eq]
        congr 2
        apply Finset.sum_congr rfl
        intro k hk
        rw [Finset.mem_Ico] at hk
        have hne : k ≠ i := by omega
        simp only [vset_ne hne]
      · rw [vset_ne hi, vset_ne hi, vset_ne hi, kb i h7 (by omega)]
        congr 2
        apply Finset.sum_congr rfl
        intro k hk
        rw [Finset.mem_Ico] at hk
        rw [vset_ne (by omega), vset_ne (by omega), vset_ne (by omega)]
    · intro i h7
      rw [vset_ne (by omega), vset_ne (by omega), vset_ne (by omega)]; exact kc i (by omega)

/-- back substitution only reads entries `1..n` (and leaves the rest), so the copy changes nothing there -/
theorem backSub_congr (n : ℕ) (low : ℕ → ℕ) (lu : Arr F) (wf : WF n low) (y y' : ℕ → F)
    (h : ∀ i, 1 ≤ i → i ≤ n → y i = y' i) :
    ∀ i, 1 ≤ i → i ≤ n → backSub n low lu y i = backSub n low lu y' i := by
  obtain ⟨h1, _⟩ := backSub_spec n low lu y wf
  obtain ⟨h2, _⟩ := backSub_spec n low lu y' wf
  have : ∀ d i, n - i = d → 1 ≤ i → i ≤ n → backSub n low lu y i = backSub n low lu y' i := by
    intro d
    induction d using Nat.strong_induction_on with
    | _ d ih =>
      intro i hd hi1 hin
      rw [h1 i hi1 hin, h2 i hi1 hin, h i hi1 hin]
      congr 1
      apply Finset.sum_congr rfl
      intro k hk
      rw [Finset.mem_Ioc] at hk
      rw [ih (n - k) (by omega) k rfl (by omega) (by omega)]
  exact fun i h3 h4 => this (n - i) i rfl h3 h4

/-! ### leading minors -/

/-- leading `k × k` block of the loaded matrix -/
def leading (low : ℕ → ℕ) (aa : Arr F) (k : ℕ) : Matrix (Fin k) (Fin k) F :=
  Matrix.of fun i j => sget low aa (i.val + 1) (j.val + 1)

theorem pivots_of_minors (n : ℕ) (low : ℕ → ℕ) (minp : F) (aa lu : Arr F) (wf : WF n low)
    (h : ∀ m, 1 ≤ m → m ≤ n → EqAt low minp aa lu m)
    (hdet : ∀ k, 1 ≤ k → k ≤ n → (leading low aa k).det ≠ 0) :
    ∀ m, 1 ≤ m → m ≤ n → aa m m - dot low lu m m m ≠ 0 := by
  intro k
  induction k using Nat.strong_induction_on with
  | _ k ih =>
    intro hk1 hkn h0
    apply hdet k hk1 hkn
    have wfk : WF k low := fun m h1 h2 => wf m h1 (by omega)
    let lu' : Arr F := lu.set k k 0
    have hdg : ∀ m, 1 ≤ m → m < k → lu m m ≠ 0 := by
      intro m h1 h2
      rw [(h m h1 (by omega)).diag, pivot, if_neg (ih m h2 h1 (by omega))]
      exact ih m h2 h1 (by omega)
    have heq : ∀ m, 1 ≤ m → m ≤ k → EqAt low (0 : F) aa lu' m := by
      intro m h1 h2
      have hwm := wf m h1 (by omega)
      have hm := h m h1 (by omega)
      refine ⟨?_, ?_, ?_⟩
      · intro r h3 h4
        show lu.set k k 0 r m = _
        rw [set_ne (by omega), hm.upper r h3 h4]
        show _ = (_ - dot low (lu.set k k 0) r m r) / lu.set k k 0 r r
        rw [set_ne (by omega)]
        congr 2
        apply dot_congr
        intro j h5 h6 h7
        rw [set_ne (by omega), set_ne (by omega)]; exact ⟨rfl, rfl⟩
      · intro r h3 h4
        show lu.set k k 0 m r = _ - dot low (lu.set k k 0) m r r
        rw [set_ne (by omega), hm.lower r h3 h4]
        congr 1
        apply dot_congr
        intro j h5 h6 h7
        rw [set_ne (by omega), set_ne (by omega)]; exact ⟨rfl, rfl⟩
      · have e : dot low lu' m m m = dot low lu m m m := by
          apply dot_congr
          intro j h5 h6 h7
          constructor
          · exact set_ne (by omega)
          · exact set_ne (by omega)
        rw [e]
        by_cases hm' : m = k
        · subst hm'
          rw [h0, pivot, if_pos rfl]; exact set_eq
        · have : lu' m m = lu m m := set_ne (by omega)
          rw [this, hm.diag, pivot, pivot, if_neg (ih m (by omega) h1 (by omega)),
            if_neg (ih m (by omega) h1 (by omega))]
    have hprod : leading low aa k =
        (Matrix.of fun (i j : Fin k) => lfull low lu' (i.val + 1) (j.val + 1)) *
        (Matrix.of fun (i j : Fin k) => ufull low lu' (i.val + 1) (j.val + 1)) := by
      ext i j
      have := lu_product k low 0 aa lu' wfk heq
        (fun m h1 h2 => by
          show lu.set k k 0 m m ≠ 0
          rw [set_ne (by omega)]; exact hdg m h1 h2)
        (i.val + 1) (j.val + 1) (by omega) (by omega) (by omega) (by omega)
      have hz : (if i.val + 1 = j.val + 1 then pivotFix low 0 aa lu' (i.val + 1) else 0) = 0 := by
        unfold pivotFix; split <;> simp
      rw [hz, add_zero] at this
      rw [Matrix.mul_apply]
      simp only [leading, Matrix.of_apply]
      rw [← this, ← Finset.Ico_add_one_right_eq_Icc, Finset.sum_Ico_eq_sum_range,
        Finset.sum_range]
      apply Finset.sum_congr rfl
      intro x _
      rw [Nat.add_comm 1 x.val]
    rw [hprod, Matrix.det_mul, Matrix.det_of_isLowerTriangular]
    · rw [Finset.prod_eq_zero (Finset.mem_univ (⟨k - 1, by omega⟩ : Fin k)), zero_mul]
      simp only [Matrix.of_apply]
      rw [Nat.sub_add_cancel hk1, lfull]
      split
      · exact set_eq
      · rfl
    · intro i j hij
      have : i.val < j.val := hij
      simp only [Matrix.of_apply]
      rw [lfull, if_neg (by omega)]

/-! ### transposed substitution -/

/-- lower factor entry below the diagonal, zero outside the profile -/
def lOff (low : ℕ → ℕ) (lu : Arr F) (j i : ℕ) : F := if low j ≤ i then lu j i else 0

theorem fwdT_spec (n : ℕ) (low : ℕ → ℕ) (lu : Arr F) (v : ℕ → F) (wf : WF n low) :
    let y := forRange 1 (n + 1) (fun ii v =>
      forRange (low ii) ii (fun jj v => vset v ii (v ii - lu jj ii * v jj)) v) v
    (∀ i, 1 ≤ i → i ≤ n → y i = v i - ∑ k ∈ Finset.Ico (low i) i, lu k i * y k) := by
  intro y
  have key := forRange_inv
    (P := fun m (t : ℕ → F) =>
      (∀ i, 1 ≤ i → i < m → t i = v i - ∑ k ∈ Finset.Ico (low i) i, lu k i * t k) ∧
      (∀ i, (i = 0 ∨ m ≤ i) → t i = v i))
    (lo := 1) (hi := n + 1)
    (f := fun ii v =>
      forRange (low ii) ii (fun jj v => vset v ii (v ii - lu jj ii * v jj)) v) (s := v) (by omega)
    ⟨fun i h1 h2 => by omega, fun _ _ => rfl⟩ ?_
  · exact fun i h1 h2 => key.1 i h1 (by omega)
  · intro m t h1 h2 ⟨ha, hb⟩
    have hw := wf m h1 (by omega)
    rw [rowLoop (fun jj => lu jj m) (low m) m m t (le_refl _) hw.2]
    refine ⟨?_, ?_⟩
    · intro i h3 h4
      by_cases hi : i = m
      · subst hi
        rw [vset_eq, hb i (by omega)]
        congr 1
        apply Finset.sum_congr rfl
        intro k hk
        rw [Finset.mem_Ico] at hk
        rw [vset_ne (by omega)]
      · rw [vset_ne hi, ha i h3 (by omega)]
        congr 1
        apply Finset.sum_congr rfl
        intro k hk
        rw [Finset.mem_Ico] at hk
        rw [vset_ne (by omega)]
    · intro i h3
      rw [vset_ne (by omega)]; exact hb i (by omega)

theorem backT_spec (n : ℕ) (low : ℕ → ℕ) (lu : Arr F) (y : ℕ → F) (wf : WF n low) (hn : 1 ≤ n) :
    let t := forDownTo2 (fun jj v =>
      let v := vset v jj (v jj / lu jj jj)
      forRange (low jj) jj (fun ii v => vset v ii (v ii - lu jj ii * v jj)) v) n y
    let x := vset t 1 (t 1 / lu 1 1)
    (∀ i, 1 ≤ i → i ≤ n → x i = (y i - ∑ j ∈ Finset.Ioc i n, lOff low lu j i * x j) / lu i i) := by
  intro t x
  have key := forDownTo2_inv
    (P := fun m (t : ℕ → F) =>
      (∀ i, 1 ≤ i → i ≤ m → t i = y i - ∑ j ∈ Finset.Ioc m n, lOff low lu j i * t j) ∧
      (∀ i, 1 ≤ i → m < i → i ≤ n → t i = (y i - ∑ j ∈ Finset.Ioc i n, lOff low lu j i * t j) / lu i i))
    (f := fun jj v =>
      let v := vset v jj (v jj / lu jj jj)
      forRange (low jj) jj (fun ii v => vset v ii (v ii - lu jj ii * v jj)) v) n y
    ⟨fun i h1 h2 => by rw [Finset.Ioc_self]; simp, fun i _ h1 h2 => by omega⟩ ?_
  · rw [show min n 1 = 1 by omega] at key
    obtain ⟨ka, kb⟩ := key
    intro i h1 h2
    have hsum : ∀ i', 1 ≤ i' → ∑ j ∈ Finset.Ioc i' n, lOff low lu j i * x j =
        ∑ j ∈ Finset.Ioc i' n, lOff low lu j i * t j := by
      intro i' hi'
      apply Finset.sum_congr rfl
      intro k hk
      rw [Finset.mem_Ioc] at hk
      show _ * vset t 1 _ k = _
      rw [vset_ne (by omega)]
    rw [hsum i h1]
    by_cases hi : i = 1
    · subst hi
      show vset t 1 _ 1 = _
      rw [vset_eq, ← ka 1 (le_refl _) (le_refl _)]
    · show vset t 1 _ i = _
      rw [vset_ne hi]; exact kb i h1 (by omega) h2
  · intro j t h1 h2 ⟨ha, hb⟩
    have hw := wf j (by omega) h2
    simp only []
    rw [colLoop (fun ii => lu j ii) (low j) j j _ (le_refl _) hw.2]
    have hje : vset t j (t j / lu j j) j = t j / lu j j := vset_eq
    rw [hje]
    refine ⟨?_, ?_⟩
    · intro i h3 h4
      have e : Finset.Ioc (j - 1) n = insert j (Finset.Ioc j n) := by
        ext k; simp only [Finset.mem_Ioc, Finset.mem_insert]; omega
      have hsum : ∑ k ∈ Finset.Ioc j n, lOff low lu k i *
            (if low j ≤ k ∧ k < j then vset t j (t j / lu j j) k - lu j k * (t j / lu j j)
              else vset t j (t j / lu j j) k) =
          ∑ k ∈ Finset.Ioc j n, lOff low lu k i * t k := by
        apply Finset.sum_congr rfl
        intro k hk
        rw [Finset.mem_Ioc] at hk
        rw [if_neg (by omega), vset_ne (by omega)]
      rw [e, Finset.sum_insert (by simp), hsum]
      beta_reduce
      have hti := ha i h3 (by omega)
      rw [if_neg (show ¬ (low j ≤ j ∧ j < j) by omega), hje]
      by_cases hl : low j ≤ i
      · rw [if_pos ⟨hl, by omega⟩, vset_ne (by omega), hti]
        simp only [lOff, hl, if_true]; ring
      · rw [if_neg (by omega), vset_ne (by omega), hti]
        simp only [lOff, hl, if_false]; ring
    · intro i h3 h4 h5
      have hsum : ∑ k ∈ Finset.Ioc i n, lOff low lu k i *
            (if low j ≤ k ∧ k < j then vset t j (t j / lu j j) k - lu j k * (t j / lu j j)
              else vset t j (t j / lu j j) k) =
          ∑ k ∈ Finset.Ioc i n, lOff low lu k i * t k := by
        apply Finset.sum_congr rfl
        intro k hk
        rw [Finset.mem_Ioc] at hk
        rw [if_neg (by omega), vset_ne (by omega)]
      rw [hsum]
      beta_reduce
      rw [if_neg (by omega)]
      by_cases hi : i = j
      · subst hi
        rw [vset_eq, ← ha i h3 (le_refl _)]
      · rw [vset_ne hi]; exact hb i h3 (by omega) h5

theorem fbsubt_solves (n : ℕ) (low : ℕ → ℕ) (minp : F) (aa lu : Arr F) (wf : WF n low) (hn : 1 ≤ n)
    (h : ∀ m, 1 ≤ m → m ≤ n → EqAt low minp aa lu m) (hp : ∀ m, 1 ≤ m → m ≤ n → lu m m ≠ 0)
    (b : ℕ → F) (r : ℕ) (hr1 : 1 ≤ r) (hr : r ≤ n) :
    ∑ c ∈ Finset.Icc 1 n, (sget low aa c r + if c = r then pivotFix low minp aa lu c else 0) *
      fbsubt n low lu b c = b r := by
  have hy := fwdT_spec n low lu b wf
  simp only [] at hy
  set y := forRange 1 (n + 1) (fun ii v =>
      forRange (low ii) ii (fun jj v => vset v ii (v ii - lu jj ii * v jj)) v) b with hyd
  have hx := backT_spec n low lu y wf hn
  simp only [] at hx
  have hdef : fbsubt n low lu b = vset (forDownTo2 (fun jj v =>
      let v := vset v jj (v jj / lu jj jj)
      forRange (low jj) jj (fun ii v => vset v ii (v ii - lu jj ii * v jj)) v) n y) 1
      ((forDownTo2 (fun jj v =>
      let v := vset v jj (v jj / lu jj jj)
      forRange (low jj) jj (fun ii v => vset v ii (v ii - lu jj ii * v jj)) v) n y) 1 / lu 1 1) := rfl
  simp only [] at hdef
  rw [← hdef] at hx
  set x := fbsubt n low lu b with hxd
  -- Lᵀ x = y
  have hL : ∀ k, 1 ≤ k → k ≤ n → ∑ c ∈ Finset.Icc 1 n, lfull low lu c k * x c = y k := by
    intro k hk1 hk
    have e : ∑ c ∈ Finset.Icc 1 n, lfull low lu c k * x c =
        ∑ c ∈ insert k (Finset.Ioc k n), lfull low lu c k * x c := by
      symm
      apply Finset.sum_subset
      · intro j hj; simp only [Finset.mem_insert, Finset.mem_Ioc, Finset.mem_Icc] at *; omega
      · intro j _ hj
        simp only [Finset.mem_insert, Finset.mem_Ioc, Finset.mem_Icc] at *
        rw [lfull, if_neg (by omega), zero_mul]
    rw [e, Finset.sum_insert (by simp)]
    have e1 : ∑ j ∈ Finset.Ioc k n, lfull low lu j k * x j = ∑ j ∈ Finset.Ioc k n, lOff low lu j k * x j := by
      apply Finset.sum_congr rfl
      intro j hj
      rw [Finset.mem_Ioc] at hj
      rw [lfull, lOff]
      by_cases hl : low j ≤ k
      · rw [if_pos ⟨hl, by omega⟩, if_pos hl]
      · rw [if_neg (by omega), if_neg hl]
    have hwk := wf k hk1 hk
    rw [e1, lfull, if_pos ⟨hwk.2, le_refl _⟩]
    conv_lhs => rw [hx k hk1 hk]
    rw [mul_div_cancel₀ _ (hp k hk1 hk)]
    ring
  -- Uᵀ y = b
  have hU : ∑ k ∈ Finset.Icc 1 n, ufull low lu k r * y k = b r := by
    have hwr := wf r hr1 hr
    have e : ∑ k ∈ Finset.Icc 1 n, ufull low lu k r * y k =
        ∑ k ∈ Finset.Ico (low r) (r + 1), ufull low lu k r * y k := by
      symm
      apply Finset.sum_subset
      · intro k hk; simp only [Finset.mem_Ico, Finset.mem_Icc] at *; omega
      · intro k _ hk
        simp only [Finset.mem_Ico] at hk
        rw [ufull, if_neg (by omega), if_neg (by omega), zero_mul]
    rw [e, Finset.sum_Ico_succ_top (by omega)]
    have e1 : ∑ k ∈ Finset.Ico (low r) r, ufull low lu k r * y k =
        ∑ k ∈ Finset.Ico (low r) r, lu k r * y k := by
      apply Finset.sum_congr rfl
      intro k hk
      rw [Finset.mem_Ico] at hk
      rw [ufull, if_neg (by omega), if_pos (by omega)]
    rw [e1, ufull, if_pos rfl, hy r hr1 hr]
    ring
  have e : ∀ c ∈ Finset.Icc 1 n, (sget low aa c r + if c = r then pivotFix low minp aa lu c else 0) * x c =
      ∑ k ∈ Finset.Icc 1 n, ufull low lu k r * (lfull low lu c k * x c) := by
    intro c hc
    rw [Finset.mem_Icc] at hc
    rw [← lu_product n low minp aa lu wf h (fun m h1 h2 => hp m h1 (by omega)) c r hc.1 hc.2 hr1 hr,
      Finset.sum_mul]
    apply Finset.sum_congr rfl
    intros; ring
  rw [Finset.sum_congr rfl e, Finset.sum_comm, ← hU]
  apply Finset.sum_congr rfl
  intro k hk
  rw [Finset.mem_Icc] at hk
  rw [← Finset.mul_sum, hL k hk.1 hk.2]

end Mat
end Gnucap
