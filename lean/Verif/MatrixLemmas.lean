import Verif.MatrixModel

/-!
# Helper lemmas about the matrix model (not property statements)
-/
set_option linter.unusedSectionVars false
namespace Gnucap.Mat

variable {F : Type _} [Field F] [DecidableEq F]

/-- the profile of an allocated matrix: `1 ≤ low m ≤ m` -/
def WF (n : ℕ) (low : ℕ → ℕ) : Prop := ∀ m, 1 ≤ m → m ≤ n → 1 ≤ low m ∧ low m ≤ m

theorem set_ne {a : Arr F} {r c i j : ℕ} {v : F} (h : ¬ (i = r ∧ j = c)) : a.set r c v i j = a i j := by
  simp [Arr.set, h]

theorem set_eq {a : Arr F} {r c : ℕ} {v : F} : a.set r c v r c = v := by simp [Arr.set]

theorem dotLoop_congr (lu lu' : Arr F) (rr cc kk : ℕ) :
    ∀ len, (∀ k, kk ≤ k → k < kk + len → lu rr k = lu' rr k ∧ lu k cc = lu' k cc) →
      dotLoop lu rr cc kk len = dotLoop lu' rr cc kk len
  | 0, _ => rfl
  | len + 1, h => by
    have := h (kk + len) (by omega) (by omega)
    rw [dotLoop, dotLoop, dotLoop_congr lu lu' rr cc kk len (fun k h1 h2 => h k h1 (by omega)), this.1, this.2]

theorem dot_congr (low : ℕ → ℕ) (lu lu' : Arr F) (rr cc dd : ℕ)
    (h : ∀ k, low rr ≤ k → low cc ≤ k → k < dd → lu rr k = lu' rr k ∧ lu k cc = lu' k cc) :
    dot low lu rr cc dd = dot low lu' rr cc dd := by
  unfold dot
  apply dotLoop_congr
  intro k h1 h2
  apply h <;> omega

theorem dot_eq_zero (low : ℕ → ℕ) (lu : Arr F) (rr cc dd : ℕ) (h : dd ≤ max (low rr) (low cc)) :
    dot low lu rr cc dd = 0 := by
  unfold dot
  have : dd - max (low rr) (low cc) = 0 := by omega
  rw [this]; rfl

/-- The equations that the factors of row/column `mm` satisfy. -/
structure EqAt (low : ℕ → ℕ) (minp : F) (aa lu : Arr F) (mm : ℕ) : Prop where
  upper : ∀ r, low mm ≤ r → r < mm → lu r mm = (aa r mm - dot low lu r mm r) / lu r r
  lower : ∀ r, low mm ≤ r → r < mm → lu mm r = aa mm r - dot low lu mm r r
  diag : lu mm mm = pivot minp (aa mm mm - dot low lu mm mm mm)

theorem EqAt.congr {low : ℕ → ℕ} {minp : F} {aa aa' lu lu' : Arr F} {mm : ℕ} (hl : low mm ≤ mm)
    (h : EqAt low minp aa lu mm)
    (hc : ∀ i j, low mm ≤ max i j → max i j ≤ mm → lu' i j = lu i j)
    (ha : ∀ i j, max i j = mm → low mm ≤ min i j → aa' i j = aa i j) :
    EqAt low minp aa' lu' mm := by
  refine ⟨?_, ?_, ?_⟩
  · intro r h1 h2
    rw [hc r mm (by omega) (by omega), hc r r (by omega) (by omega), h.upper r h1 h2,
      ha r mm (by omega) (by omega)]
    congr 2
    apply dot_congr
    intro k h3 h4 h5
    rw [hc r k (by omega) (by omega), hc k mm (by omega) (by omega)]; exact ⟨rfl, rfl⟩
  · intro r h1 h2
    rw [hc mm r (by omega) (by omega), h.lower r h1 h2, ha mm r (by omega) (by omega)]
    congr 1
    apply dot_congr
    intro k h3 h4 h5
    rw [hc mm k (by omega) (by omega), hc k r (by omega) (by omega)]; exact ⟨rfl, rfl⟩
  · rw [hc mm mm (by omega) (by omega), h.diag, ha mm mm (by omega) (by omega)]
    congr 2
    apply dot_congr
    intro k h3 h4 h5
    rw [hc mm k (by omega) (by omega), hc k mm (by omega) (by omega)]; exact ⟨rfl, rfl⟩

/-- first inner loop (`u(ii,mm)`), started at `lo` with the rows `[bn, lo)` done -/
theorem upperLoop_spec (low : ℕ → ℕ) (aa lu0 lu1 : Arr F) (bn lo mm : ℕ) (hlo : lo ≤ mm)
    (hframe : ∀ i j, ¬ (j = mm ∧ bn ≤ i ∧ i < lo) → lu1 i j = lu0 i j)
    (heq : ∀ r, bn ≤ r → r < lo → lu1 r mm = (aa r mm - dot low lu1 r mm r) / lu1 r r) :
    let lu' := forRange lo mm
      (fun ii (lu : Arr F) => lu.set ii mm ((aa ii mm - dot low lu ii mm ii) / lu ii ii)) lu1
    (∀ i j, ¬ (j = mm ∧ bn ≤ i ∧ i < mm) → lo ≥ bn → lu' i j = lu0 i j) ∧
    (∀ r, bn ≤ r → r < mm → lo ≥ bn → lu' r mm = (aa r mm - dot low lu' r mm r) / lu' r r) := by
  intro lu'
  by_cases hb : bn ≤ lo
  swap
  · exact ⟨fun _ _ _ h => absurd h (by omega), fun _ _ _ h => absurd h (by omega)⟩
  have := forRange_inv
    (P := fun i (t : Arr F) => (∀ p q, ¬ (q = mm ∧ bn ≤ p ∧ p < i) → t p q = lu0 p q) ∧
      (∀ r, bn ≤ r → r < i → t r mm = (aa r mm - dot low t r mm r) / t r r))
    (f := fun ii (lu : Arr F) => lu.set ii mm ((aa ii mm - dot low lu ii mm ii) / lu ii ii))
    (s := lu1) hlo ⟨hframe, heq⟩ ?_
  · exact ⟨fun i j h _ => this.1 i j h, fun r h1 h2 _ => this.2 r h1 h2⟩
  · intro i t h1 h2 ⟨hf, he⟩
    refine ⟨?_, ?_⟩
    · intro p q h
      rw [set_ne (by omega)]
      exact hf p q (by omega)
    · intro r h3 h4
      by_cases hr : r = i
      · subst hr
        rw [set_eq, set_ne (by omega)]
        congr 2
        apply dot_congr
        intro k _ _ _
        rw [set_ne (by omega), set_ne (by omega)]; exact ⟨rfl, rfl⟩
      · rw [set_ne (by omega), set_ne (by omega), he r h3 (by omega)]
        congr 2
        apply dot_congr
        intro k _ _ _
        rw [set_ne (by omega), set_ne (by omega)]; exact ⟨rfl, rfl⟩

/-- second inner loop (`l(mm,jj)`) -/
theorem lowerLoop_spec (low : ℕ → ℕ) (aa lu0 lu1 : Arr F) (bn lo mm : ℕ) (hlo : lo ≤ mm)
    (hframe : ∀ i j, ¬ (i = mm ∧ bn ≤ j ∧ j < lo) → lu1 i j = lu0 i j)
    (heq : ∀ r, bn ≤ r → r < lo → lu1 mm r = aa mm r - dot low lu1 mm r r) :
    let lu' := forRange lo mm
      (fun jj (lu : Arr F) => lu.set mm jj (aa mm jj - dot low lu mm jj jj)) lu1
    (∀ i j, ¬ (i = mm ∧ bn ≤ j ∧ j < mm) → lo ≥ bn → lu' i j = lu0 i j) ∧
    (∀ r, bn ≤ r → r < mm → lo ≥ bn → lu' mm r = aa mm r - dot low lu' mm r r) := by
  intro lu'
  by_cases hb : bn ≤ lo
  swap
  · exact ⟨fun _ _ _ h => absurd h (by omega), fun _ _ _ h => absurd h (by omega)⟩
  have := forRange_inv
    (P := fun i (t : Arr F) => (∀ p q, ¬ (p = mm ∧ bn ≤ q ∧ q < i) → t p q = lu0 p q) ∧
      (∀ r, bn ≤ r → r < i → t mm r = aa mm r - dot low t mm r r))
    (f := fun jj (lu : Arr F) => lu.set mm jj (aa mm jj - dot low lu mm jj jj))
    (s := lu1) hlo ⟨hframe, heq⟩ ?_
  · exact ⟨fun i j h _ => this.1 i j h, fun r h1 h2 _ => this.2 r h1 h2⟩
  · intro i t h1 h2 ⟨hf, he⟩
    refine ⟨?_, ?_⟩
    · intro p q h
      rw [set_ne (by omega)]
      exact hf p q (by omega)
    · intro r h3 h4
      by_cases hr : r = i
      · subst hr
        rw [set_eq]
        congr 1
        apply dot_congr
        intro k _ _ _
        rw [set_ne (by omega), set_ne (by omega)]; exact ⟨rfl, rfl⟩
      · rw [set_ne (by omega), he r h3 (by omega)]
        congr 1
        apply dot_congr
        intro k _ _ _
        rw [set_ne (by omega), set_ne (by omega)]; exact ⟨rfl, rfl⟩

/-- One step of the copying decomposition establishes the equations of its row/column and touches nothing else. -/
theorem copyStep_spec (low : ℕ → ℕ) (minp : F) (aa lu : Arr F) (mm : ℕ) (hl : low mm ≤ mm) :
    EqAt low minp aa (copyStep low minp aa mm lu) mm ∧
    ∀ i j, max i j ≠ mm → copyStep low minp aa mm lu i j = lu i j := by
  by_cases hb : low mm < mm
  · simp only [copyStep, hb, if_true]
    set lu1 := lu.set (low mm) mm (aa (low mm) mm / lu (low mm) (low mm)) with hlu1
    set lu2 := forRange (low mm + 1) mm
      (fun ii (lu : Arr F) => lu.set ii mm ((aa ii mm - dot low lu ii mm ii) / lu ii ii)) lu1 with hlu2
    have h2 := upperLoop_spec low aa lu lu1 (low mm) (low mm + 1) mm (by omega)
      (by intro i j h; rw [hlu1, set_ne (by omega)])
      (by
        intro r h1 h2
        have : r = low mm := by omega
        subst this
        rw [dot_eq_zero _ _ _ _ _ (le_max_right _ _), sub_zero, hlu1, set_eq, set_ne (by omega)])
    simp only [← hlu2] at h2
    obtain ⟨f2, e2⟩ := h2
    replace f2 := fun i j h => f2 i j h (by omega)
    replace e2 := fun r h h' => e2 r h h' (by omega)
    set lu3 := lu2.set mm (low mm) (aa mm (low mm)) with hlu3
    set lu4 := forRange (low mm + 1) mm
      (fun jj (lu : Arr F) => lu.set mm jj (aa mm jj - dot low lu mm jj jj)) lu3 with hlu4
    have h4 := lowerLoop_spec low aa lu2 lu3 (low mm) (low mm + 1) mm (by omega)
      (by intro i j h; rw [hlu3, set_ne (by omega)])
      (by
        intro r h1 h2
        have : r = low mm := by omega
        subst this
        rw [dot_eq_zero _ _ _ _ _ (le_max_left _ _), sub_zero, hlu3, set_eq])
    simp only [← hlu4] at h4
    obtain ⟨f4, e4⟩ := h4
    replace f4 := fun i j h => f4 i j h (by omega)
    replace e4 := fun r h h' => e4 r h h' (by omega)
    refine ⟨⟨?_, ?_, ?_⟩, ?_⟩
    · intro r h1 h2
      rw [set_ne (by omega), set_ne (by omega), f4 r mm (by omega), f4 r r (by omega), e2 r h1 h2]
      congr 2
      apply dot_congr
      intro k h3 h4 h5
      rw [set_ne (by omega), set_ne (by omega), f4 r k (by omega), f4 k mm (by omega)]; exact ⟨rfl, rfl⟩
    · intro r h1 h2
      rw [set_ne (by omega), e4 r h1 h2]
      congr 1
      apply dot_congr
      intro k h3 h4 h5
      rw [set_ne (by omega), set_ne (by omega)]; exact ⟨rfl, rfl⟩
    · rw [set_eq]
      congr 2
      apply dot_congr
      intro k h3 h4 h5
      rw [set_ne (by omega), set_ne (by omega)]; exact ⟨rfl, rfl⟩
    · intro i j h
      rw [set_ne (by omega), f4 i j (by omega), f2 i j (by omega)]
  · have hm : low mm = mm := by omega
    simp only [copyStep, hb, if_false]
    refine ⟨⟨?_, ?_, ?_⟩, ?_⟩
    · intro r h1 h2; omega
    · intro r h1 h2; omega
    · rw [set_eq, dot_eq_zero _ _ _ _ _ (by omega), sub_zero]
    · intro i j h; exact set_ne (by omega)

/-- The equations determine the factors inside the profile. -/
theorem EqAt.unique {n : ℕ} {low : ℕ → ℕ} {minp : F} {aa lu lu' : Arr F} (wf : WF n low)
    (h : ∀ m, 1 ≤ m → m ≤ n → EqAt low minp aa lu m)
    (h' : ∀ m, 1 ≤ m → m ≤ n → EqAt low minp aa lu' m) :
    ∀ m, m ≤ n → ∀ i j, max i j = m → 1 ≤ m → low m ≤ min i j → lu i j = lu' i j := by
  intro m
  induction m using Nat.strong_induction_on with
  | _ m ih =>
    intro hm
    by_cases h1m : 1 ≤ m
    swap
    · intro i j _ h; omega
    have hw := wf m h1m hm
    have ihc : ∀ i j, max i j < m → 1 ≤ max i j → low (max i j) ≤ min i j → lu i j = lu' i j :=
      fun i j h1 h2 h3 => ih (max i j) h1 (by omega) i j rfl h2 h3
    have hup : ∀ r, low m ≤ r → r < m → lu r m = lu' r m := by
      intro r
      induction r using Nat.strong_induction_on with
      | _ r ihr =>
        intro h2 h3
        have hwr := wf r (by omega) (by omega)
        have er : lu r r = lu' r r := ihc r r (by omega) (by omega) (by simpa using hwr.2)
        rw [(h m h1m hm).upper r h2 h3, (h' m h1m hm).upper r h2 h3, er]
        congr 2
        apply dot_congr
        intro k h4 h5 h6
        refine ⟨ihc r k (by omega) (by omega) ?_, ihr k h6 h5 (by omega)⟩
        rw [max_eq_left (by omega), min_eq_right (by omega)]; exact h4
    have hlo : ∀ r, low m ≤ r → r < m → lu m r = lu' m r := by
      intro r
      induction r using Nat.strong_induction_on with
      | _ r ihr =>
        intro h2 h3
        rw [(h m h1m hm).lower r h2 h3, (h' m h1m hm).lower r h2 h3]
        congr 1
        apply dot_congr
        intro k h4 h5 h6
        refine ⟨ihr k h6 h4 (by omega), ihc k r (by omega) (by omega) ?_⟩
        rw [max_eq_right (by omega), min_eq_left (by omega)]; exact h5
    have hd : lu m m = lu' m m := by
      rw [(h m h1m hm).diag, (h' m h1m hm).diag]
      congr 2
      apply dot_congr
      intro k h4 h5 h6
      exact ⟨hlo k h4 h6, hup k h5 h6⟩
    intro i j hij _ hlow
    rcases lt_trichotomy i j with hc | hc | hc
    · have : j = m := by omega
      subst this; exact hup i (by omega) hc
    · have : j = m := by omega
      subst hc; subst this; exact hd
    · have : i = m := by omega
      subst this; exact hlo j (by omega) hc

/-- What a (partial or full) copying decomposition needs before it starts: every row whose equations are stale has a
changed flag somewhere between its low node and itself. -/
def Fresh (n : ℕ) (low : ℕ → ℕ) (minp : F) (aa lu : Arr F) (changed : ℕ → Bool) : Prop :=
  ∀ m, 1 ≤ m → m ≤ n → (∀ k, low m ≤ k → k ≤ m → changed k = false) → EqAt low minp aa lu m

theorem luCopy_spec (n : ℕ) (low : ℕ → ℕ) (minp : F) (doPartial : Bool) (aa lu : Arr F) (changed : ℕ → Bool)
    (wf : WF n low) (h : doPartial = true → Fresh n low minp aa lu changed) :
    (∀ m, 1 ≤ m → m ≤ n → EqAt low minp aa (luCopy n low minp doPartial aa lu changed).1 m) ∧
    (∀ m, 1 ≤ m → m ≤ n → (luCopy n low minp doPartial aa lu changed).2 m = false) := by
  have key := forRange_inv
    (P := fun i (s : LuState F) =>
      (∀ m, 1 ≤ m → m < i → EqAt low minp aa s.lu m) ∧
      (∀ m, 1 ≤ m → m < i → s.changed m = false) ∧
      (∀ m, i ≤ m → s.changed m = changed m) ∧
      (∀ p q, i ≤ max p q → s.lu p q = lu p q) ∧
      (doPartial = true → ∀ m, s.prop < m → m < i → changed m = false ∧ ∀ p q, max p q = m → s.lu p q = lu p q))
    (lo := 1) (hi := n + 1) (f := luStep doPartial low minp aa) (s := ⟨lu, changed, 0⟩)
    (by omega) ⟨fun m h1 h2 => by omega, fun m h1 h2 => by omega, fun _ _ => rfl, fun _ _ _ => rfl,
      fun _ m h1 h2 => by omega⟩ ?_
  · exact ⟨fun m h1 h2 => key.1 m h1 (by omega), fun m h1 h2 => key.2.1 m h1 (by omega)⟩
  · intro i s hi1 hi2 ⟨hE, hC, hC', hF, hP⟩
    have hw := wf i hi1 (by omega)
    by_cases hc : (!doPartial || s.changed i || decide (low i ≤ s.prop)) = true
    · have hs : luStep doPartial low minp aa i s =
          { lu := copyStep low minp aa i s.lu
            changed := fun k => if k = i then false else s.changed k
            prop := i } := by
        simp only [luStep]; rw [if_pos hc]
      rw [hs]
      obtain ⟨he, hf⟩ := copyStep_spec low minp aa s.lu i hw.2
      refine ⟨?_, ?_, ?_, ?_, ?_⟩
      · intro m h1 h2
        by_cases hm : m = i
        · subst hm; exact he
        · have hwm := wf m h1 (by omega)
          exact (hE m h1 (by omega)).congr hwm.2 (fun p q _ h4 => hf p q (by omega)) (fun _ _ _ _ => rfl)
      · intro m h1 h2
        by_cases hm : m = i
        · simp [hm]
        · simp only [hm, if_false]; exact hC m h1 (by omega)
      · intro m h1
        have : m ≠ i := by omega
        simp only [this, if_false]; exact hC' m (by omega)
      · intro p q h1
        show copyStep low minp aa i s.lu p q = lu p q
        rw [hf p q (by omega)]; exact hF p q (by omega)
      · intro hp m h1 h2
        simp only at h1; omega
    · have hs : luStep doPartial low minp aa i s = s := by
        simp only [luStep]; rw [if_neg hc]
      rw [hs]
      simp only [Bool.or_eq_true, Bool.not_eq_true', decide_eq_true_eq, not_or, Bool.not_eq_true,
        Bool.not_eq_false, not_le] at hc
      obtain ⟨⟨hdp, hci⟩, hprop⟩ := hc
      have hchi : changed i = false := by rw [← hC' i (le_refl _)]; exact hci
      have hP := hP hdp
      refine ⟨?_, ?_, ?_, ?_, ?_⟩
      · intro m h1 h2
        by_cases hm : m = i
        · subst hm
          have hfr : EqAt low minp aa lu m := by
            apply h hdp m h1 (by omega)
            intro k h3 h4
            by_cases hk : k = m
            · subst hk; exact hchi
            · exact (hP k (by omega) (by omega)).1
          apply hfr.congr hw.2
          · intro p q h3 h4
            by_cases hk : max p q = m
            · exact hF p q (by omega)
            · exact (hP (max p q) (by omega) (by omega)).2 p q rfl
          · intros; rfl
        · exact hE m h1 (by omega)
      · intro m h1 h2
        by_cases hm : m = i
        · subst hm; exact hci
        · exact hC m h1 (by omega)
      · intro m h1; exact hC' m (by omega)
      · intro p q h1; exact hF p q (by omega)
      · intro _ m h1 h2
        by_cases hm : m = i
        · subst hm; exact ⟨hchi, fun p q h3 => hF p q (by omega)⟩
        · exact hP m h1 (by omega)

end Gnucap.Mat
