import Verif.TableModel
import Verif.FtosWidth
import Verif.OutProps
import Verif.SpiceProps

/-!
# Printed tables (C80): theorems
-/
namespace Gnucap.Table
open Gnucap.Scan Gnucap.Num Gnucap.Out

/-! ## Columns -/

/-- Specification: column `k` of a line with columns `w` wide -/
def field (w k : ℕ) (t : List Char) : List Char := (t.drop (k * w)).take w

theorem field_flatten (w : ℕ) (l : List (List Char)) (hl : ∀ s ∈ l, s.length = w) (k : ℕ) (s : List Char) (hk : l[k]? = some s) :
    field w k l.flatten = s := by
  induction l generalizing k with
  | nil => simp at hk
  | cons a l ih =>
    have ha := hl a (by simp)
    cases k with
    | zero =>
      simp at hk; subst hk
      simp [field, ← ha]
    | succ k =>
      simp only [List.getElem?_cons_succ] at hk
      have := ih (fun s hs => hl s (by simp [hs])) k hk
      unfold field at this ⊢
      rw [List.flatten_cons, Nat.succ_mul, Nat.add_comm, ← List.drop_drop]
      rw [show (a ++ l.flatten).drop w = l.flatten by rw [← ha]; simp]
      exact this

theorem mapM_getElem {α β : Type} (f : α → Option β) (l : List α) (r : List β) (h : l.mapM f = some r) (k : ℕ) (b : β) (hk : r[k]? = some b) :
    ∃ a, l[k]? = some a ∧ f a = some b := by
  induction l generalizing r k with
  | nil => simp at h; subst h; simp at hk
  | cons x l ih =>
    rw [List.mapM_cons] at h
    rcases h1 : f x with _ | y
    · rw [h1] at h; cases h
    · rcases h2 : l.mapM f with _ | t
      · rw [h1, h2] at h; cases h
      · rw [h1, h2] at h
        cases h
        cases k with
        | zero => simp at hk; subst hk; exact ⟨x, by simp, h1⟩
        | succ k =>
          obtain ⟨a, e1, e2⟩ := ih t h2 k (by simpa using hk)
          exact ⟨a, by simpa using e1, e2⟩

theorem mapM_length {α β : Type} (f : α → Option β) (l : List α) (r : List β) (h : l.mapM f = some r) : r.length = l.length := by
  induction l generalizing r with
  | nil => simp at h; subst h; rfl
  | cons x l ih =>
    rw [List.mapM_cons] at h
    rcases h1 : f x with _ | y
    · rw [h1] at h; cases h
    · rcases h2 : l.mapM f with _ | t
      · rw [h1, h2] at h; cases h
      · rw [h1, h2] at h
        cases h
        simp [ih t h2]

theorem mapM_mem {α β : Type} (f : α → Option β) (l : List α) (r : List β) (h : l.mapM f = some r) (b : β) (hb : b ∈ r) : ∃ a ∈ l, f a = some b := by
  obtain ⟨k, hk⟩ := List.mem_iff_getElem?.mp hb
  obtain ⟨a, e1, e2⟩ := mapM_getElem f l r h k b hk
  exact ⟨a, List.mem_of_getElem? e1, e2⟩

/-- Specification: a text, and blanks up to a width -/
def padded (w : ℕ) (s : List Char) : List Char := s ++ List.replicate (w - s.length) ' '

theorem headCell_eq (n : ℕ) (h : n ≤ 33) (c : Char) (label : List Char) (hl : label.length ≤ n + 5) :
    headCell n c label = some (c :: padded (n + 5) label) := by
  unfold headCell form padded buffer
  rw [if_pos]
  · congr 4
    omega
  · simp; omega

theorem head_eq (n : ℕ) (h : n ≤ 33) (col1 : List Char) (labels : List (List Char)) (h1 : col1.length ≤ n + 5)
    (hl : ∀ s ∈ labels, s.length ≤ n + 5) :
    head n col1 labels = some (('#' :: padded (n + 5) col1) :: labels.map fun s => ' ' :: padded (n + 5) s) := by
  have : labels.mapM (headCell n ' ') = some (labels.map fun s => ' ' :: padded (n + 5) s) := by
    induction labels with
    | nil => rfl
    | cons s l ih =>
      rw [List.mapM_cons, headCell_eq n h ' ' s (hl s (by simp)), ih (fun t ht => hl t (by simp [ht]))]
      rfl
  unfold head
  rw [headCell_eq n h '#' col1 h1, this]
  rfl

theorem row_cell (n : ℕ) (h4 : 4 ≤ n) (h33 : n ≤ 33) (fmt : Fmt) (hf : fmt.fill = false) (x : ℚ) (vs : List ℚ) (r : List (List Char))
    (h : row n fmt x vs = some r) : ∀ s ∈ r, s.length = n + 6 ∧ s.getLast? = some ' ' ∧ ∀ c ∈ s, (isGraph c = true ∧ c ≠ '\\') ∨ c = ' ' := by
  intro s hs
  obtain ⟨v, -, e⟩ := mapM_mem _ _ _ h s hs
  obtain ⟨a, b⟩ := ftos_width v n fmt hf h4 h33 s e
  exact ⟨a, b, fun c hc => (ftos_visible v _ _ fmt s e c hc).imp_left fun ⟨h1, h2⟩ => ⟨h1, fun h => h2 (by simp [h])⟩⟩

/-- **C80, digits**: the number of digits asked for, 4 or more, is one the theorems speak of. -/
theorem digits_range (m : ℤ) (h : 4 ≤ m) : 4 ≤ toRange m ∧ toRange m ≤ 20 ∧ (m ≤ 20 → (toRange m : ℤ) = m) := by
  unfold toRange
  omega

/-- **C80, columns**: with 4 to 20 digits and labels that are not wider than the columns, column `k` of every row is the value of the
probe whose label is column `k` of the heading. -/
theorem same_columns (n : ℕ) (h4 : 4 ≤ n) (h20 : n ≤ 20) (fmt : Fmt) (hf : fmt.fill = false) (col1 : List Char) (labels : List (List Char))
    (h1 : col1.length ≤ n + 5) (hl : ∀ s ∈ labels, s.length ≤ n + 5) (x : ℚ) (vs : List ℚ) (r : List (List Char)) (hr : row n fmt x vs = some r) :
    ∃ h, head n col1 labels = some h ∧ h.flatten.length = (labels.length + 1) * (n + 6) ∧ r.flatten.length = (vs.length + 1) * (n + 6) ∧
      field (n + 6) 0 h.flatten = '#' :: padded (n + 5) col1 ∧ ftos x (n + 6) n fmt = some (field (n + 6) 0 r.flatten) ∧
      (∀ k s, labels[k]? = some s → field (n + 6) (k + 1) h.flatten = ' ' :: padded (n + 5) s) ∧
      ∀ k v, vs[k]? = some v → ftos v (n + 6) n fmt = some (field (n + 6) (k + 1) r.flatten) := by
  have hcell := row_cell n h4 (by omega) fmt hf x vs r hr
  have hw : ∀ s ∈ (('#' :: padded (n + 5) col1) :: labels.map fun s => ' ' :: padded (n + 5) s), s.length = n + 6 := by
    intro s hs
    have hp : ∀ t : List Char, t.length ≤ n + 5 → (padded (n + 5) t).length = n + 5 := by
      intro t ht; simp [padded]; omega
    rcases List.mem_cons.mp hs with rfl | hs
    · simp [hp col1 h1]
    · obtain ⟨t, ht, rfl⟩ := List.mem_map.mp hs
      simp [hp t (hl t ht)]
  have hlen : ∀ (w : ℕ) (l : List (List Char)), (∀ s ∈ l, s.length = w) → l.flatten.length = l.length * w := by
    intro w l hl
    induction l with
    | nil => simp
    | cons a l ih =>
      rw [List.flatten_cons, List.length_append, hl a (by simp), ih (fun s hs => hl s (by simp [hs])), List.length_cons]
      ring
  have hrl := mapM_length _ _ _ hr
  have hget : ∀ k v, (x :: vs)[k]? = some v → ftos v (n + 6) n fmt = some (field (n + 6) k r.flatten) := by
    intro k v hk
    have hlt : k < r.length := by
      rw [hrl]
      exact (List.getElem?_eq_some_iff.mp hk).1
    obtain ⟨a, e1, e2⟩ := mapM_getElem _ _ _ hr k r[k] (List.getElem?_eq_getElem hlt)
    rw [hk] at e1
    cases e1
    rw [field_flatten (n + 6) r (fun s hs => (hcell s hs).1) k r[k] (List.getElem?_eq_getElem hlt)]
    exact e2
  refine ⟨_, head_eq n (by omega) col1 labels h1 hl, ?_, ?_, ?_, ?_, ?_, ?_⟩
  · rw [hlen (n + 6) _ hw]; simp
  · rw [hlen (n + 6) _ (fun s hs => (hcell s hs).1), hrl]; simp
  · exact field_flatten _ _ hw 0 _ (by simp)
  · exact hget 0 x (by simp)
  · intro k s hk
    exact field_flatten _ _ hw (k + 1) _ (by simp [hk])
  · intro k v hk
    exact hget (k + 1) v (by simpa using hk)

/-- `time`, `v(1)`, `i(r1)` -/
example : (row 5 ⟨true, false, false⟩ (1 / 1000) [5, -3 / 100]).isSome = true ∧ (['t', 'i', 'm', 'e'] : List Char).length ≤ 5 + 5 ∧
    ∀ s ∈ ([['v', '(', '1', ')'], ['i', '(', 'r', '1', ')']] : List (List Char)), s.length ≤ 5 + 5 := by decide +kernel

/-! ## Reading the numbers -/

/-- the digits kept: the text read differs from the number by less than half a unit in the last but one of the digits asked for -/
def Close (n : ℕ) (num v : ℚ) : Prop :=
  if |num| < 1 / 10 ^ 99 then v = 0 else |v - num| ≤ 1 / 2 * (10 : ℚ) ^ (2 - n : ℤ) * |num|

/-- Specification: numbers read one after the other -/
def readAll (u : Units) : ℕ → List Char → Option (List ℚ × List Char)
  | 0, s => some ([], s)
  | k + 1, s =>
    match ctof u s with
    | .num v r => (readAll u k r).map fun p => (v :: p.1, p.2)
    | _ => none

theorem ctof_skipcom (u : Units) (s : List Char) (v : ℚ) (r : List Char) (h : ctof u s = .num v r) : ctof u (skipcom s) = .num v r := by
  have hs : skipcom s = skipbl s := by
    rcases hb : skipbl s with _ | ⟨c, t⟩
    · simp [skipcom, hb]
    · unfold ctof at h
      simp only [hb] at h
      by_cases hc : isFloat c = true
      · have : c ≠ ',' := by rintro rfl; revert hc; decide
        unfold skipcom
        rw [hb]
        split
        · rename_i e
          cases e
          exact absurd rfl this
        · rfl
      · rw [if_neg hc] at h; cases h
  rw [hs]
  unfold ctof at h ⊢
  rw [Spice.skipbl_idem]
  exact h

/-- every number in range is printed, and read as one that is close -/
theorem cell_reads (n : ℕ) (h4 : 4 ≤ n) (h33 : n ≤ 33) (fmt : Fmt) (hf : fmt.fill = false) (num : ℚ) (h : |num| < bigbig) :
    ∃ s v, ftos num (n + 6) n fmt = some s ∧ Close n num v ∧ ∀ u r, ctof u (s ++ r) = .num v (skipcom r) := by
  by_cases h0 : |num| < 1 / 10 ^ 99
  · obtain ⟨s, e, hr⟩ := ftos_zero num (n + 6) n fmt h33 h0
    exact ⟨s, 0, e, by rw [Close, if_pos h0], fun u r => hr u r (.inr (ftos_width num n fmt hf h4 h33 s e).2)⟩
  · obtain ⟨s, v, m, D, e, hr, a1, a2, a3, a4, a5, -⟩ := ftos_reads num (n + 6) n fmt h33 (not_lt.mp h0) h
    refine ⟨s, v, e, ?_, fun u r => hr u r (.inr (ftos_width num n fmt hf h4 h33 s e).2)⟩
    rw [Close, if_neg h0]
    refine a3.trans ?_
    have e1 : (10 : ℚ) ^ (m - D : ℤ) = 10 ^ (1 - D : ℤ) * 10 ^ (m - 1) := by rw [← zpow_add₀ (by norm_num)]; congr 1; ring
    rw [e1, mul_assoc]
    have e2 : (10 : ℚ) ^ (1 - D : ℤ) ≤ 10 ^ (2 - n : ℤ) := zpow_le_zpow_right₀ (by norm_num) (by omega)
    have e3 : (0 : ℚ) ≤ 10 ^ (m - 1) := zpow_nonneg (by norm_num) _
    have e4 : (0 : ℚ) ≤ 10 ^ (2 - n : ℤ) := zpow_nonneg (by norm_num) _
    have := mul_le_mul e2 a1 e3 e4
    linarith

/-- **C80, reading**: a row with 4 to 20 digits, read number by number, gives every value of the row to the digits asked for but one,
and nothing is left. -/
theorem row_read (n : ℕ) (h4 : 4 ≤ n) (h20 : n ≤ 20) (fmt : Fmt) (hf : fmt.fill = false) (x : ℚ) (vs : List ℚ)
    (hv : ∀ v ∈ x :: vs, |v| < bigbig) :
    ∃ r, row n fmt x vs = some r ∧ ∃ ws, (∀ u, readAll u (vs.length + 1) r.flatten = some (ws, [])) ∧ List.Forall₂ (Close n) (x :: vs) ws := by
  have key : ∀ l : List ℚ, (∀ v ∈ l, |v| < bigbig) → ∃ r, (l.mapM fun v => ftos v (n + 6) n fmt) = some r ∧ ∃ ws, List.Forall₂ (Close n) l ws ∧
      ∀ u, readAll u l.length r.flatten = some (ws, []) ∧ readAll u l.length (skipcom r.flatten) = some (ws, []) := by
    intro l
    induction l with
    | nil => intro _; exact ⟨[], rfl, [], .nil, fun u => ⟨rfl, rfl⟩⟩
    | cons v l ih =>
      intro hl
      obtain ⟨s, w, e1, e2, e3⟩ := cell_reads n h4 (by omega) fmt hf v (hl v (by simp))
      obtain ⟨r, e4, ws, e5, e6⟩ := ih (fun v hv => hl v (by simp [hv]))
      refine ⟨s :: r, ?_, w :: ws, .cons e2 e5, ?_⟩
      · rw [List.mapM_cons, e1, e4]; rfl
      · intro u
        have h1 := e3 u r.flatten
        have h2 := ctof_skipcom u _ _ _ h1
        rw [List.flatten_cons]
        constructor
        · simp only [List.length_cons, readAll, h1, (e6 u).2, Option.map_some]
        · simp only [List.length_cons, readAll, h2, (e6 u).2, Option.map_some]
  obtain ⟨r, e1, ws, e2, e3⟩ := key (x :: vs) hv
  exact ⟨r, e1, ws, fun u => (e3 u).1, e2⟩

example : ∀ v ∈ (1 / 1000 : ℚ) :: [5, -3 / 100], |v| < bigbig := by decide +kernel

/-! ## Lines -/

theorem clean_ink (c : Char) (h : (isGraph c = true ∧ c ≠ '\\') ∨ c = ' ') : Ink c ∧ c ≠ '\n' := by
  rcases h with ⟨h, -⟩ | rfl
  · refine ⟨⟨?_, ?_, ?_⟩, ?_⟩ <;> (rintro rfl; revert h; decide)
  · exact ⟨⟨by decide, by decide, by decide⟩, by decide⟩

theorem blank_shown (l : List (List Char)) (h : ∀ s ∈ l, s.getLast? = some ' ') : l.flatMap shown = l.flatten := by
  rw [List.flatMap_def]
  congr 1
  conv_rhs => rw [← List.map_id l]
  refine List.map_congr_left fun s hs => ?_
  simp [shown, h s hs]

theorem run_append (width : ℕ) (w : W) (a b : List (Om × Op)) : run width w (a ++ b) = run width (run width w a) b := by
  simp [run]

theorem run_nl (width : ℕ) (w : W) (o : Om) (i : ℕ) (hm : o.mask i = true) (hp : o.pack = false) :
    ((run width w [(o, .chr '\n')]).h i).text = (w.h i).text ++ ['\n'] := by
  simp [run, step, putc, putH, hm, hp]

/-- **C80, lines**: a row that fits in the width is one line of the file. -/
theorem row_line (width n : ℕ) (h4 : 4 ≤ n) (h20 : n ≤ 20) (fmt : Fmt) (hf : fmt.fill = false) (x : ℚ) (vs : List ℚ) (r : List (List Char))
    (hr : row n fmt x vs = some r) (o : Om) (hp : o.pack = false) (w : W) (hw : ∀ i, Even (w.h i)) (i : ℕ) (hm : o.mask i = true)
    (h0 : column (w.h i).text = 0) (hfit : (vs.length + 1) * (n + 6) < width) :
    ((run width w (ops o r)).h i).text = (w.h i).text ++ r.flatten ++ ['\n'] := by
  have hcell := row_cell n h4 (by omega) fmt hf x vs r hr
  have hlen : r.flatten.length = (vs.length + 1) * (n + 6) := by
    have hrl := mapM_length _ _ _ hr
    have : ∀ l : List (List Char), (∀ s ∈ l, s.length = n + 6) → l.flatten.length = l.length * (n + 6) := by
      intro l hl
      induction l with
      | nil => simp
      | cons a l ih =>
        rw [List.flatten_cons, List.length_append, hl a (by simp), ih (fun s hs => hl s (by simp [hs])), List.length_cons]
        ring
    rw [this r (fun s hs => (hcell s hs).1), hrl]; simp
  unfold ops
  rw [run_append, run_nl _ _ _ _ hm hp, short_unbroken width o r w i hp (by
    intro s hs
    have := (hcell s hs).2.2
    exact ⟨fun c hc => (clean_ink c (this c hc)).1, fun hn => (clean_ink _ (this _ hn)).2 rfl⟩) hw hm 0 (fun s hs => by simp [room, (hcell s hs).2.1]) (by rw [h0, hlen]; omega),
    blank_shown r (fun s hs => (hcell s hs).2.1)]

/-- the start -/
example : (∀ i, Even ((⟨fun _ => ⟨[], 0⟩, ' '⟩ : W).h i)) ∧ (2 + 1) * (5 + 6) < 80 := ⟨fun _ => rfl, by norm_num⟩

theorem spaced_cells (bs : List Bool) (r : List (List Char)) (hr : ∀ s ∈ r, s.getLast? = some ' ') : ∀ p, p = true → Spaced p (bs.zip r) := by
  induction r generalizing bs with
  | nil => intro p _; cases bs <;> simp [Spaced]
  | cons s r ih =>
    intro p hp
    cases bs with
    | nil => simp [Spaced]
    | cons b bs =>
      refine ⟨fun _ => .inl hp, ih bs (fun t ht => hr t (by simp [ht])) _ ?_⟩
      have hs := hr s (by simp)
      split
      · exact hp
      · simp [ends, hs]; decide

theorem words_cells (r : List (List Char)) (hr : ∀ s ∈ r, s.getLast? = some ' ') : words r.flatten [] = r.flatMap fun s => words s [] := by
  induction r with
  | nil => rfl
  | cons s r ih =>
    rw [List.flatten_cons, words_gap s r.flatten (.inl (by
      have hs := hr s (by simp)
      simp [ends, hs]; decide)), ih (fun t ht => hr t (by simp [ht]))]
    rfl

/-- where a row is broken: no line is longer than the width, or a cell behind a `+` -/
theorem row_laid (width n M : ℕ) (hM1 : width ≤ M + 1) (hM2 : n + 7 ≤ M) (o : Om) (hp : o.pack = false) (i : ℕ) (hm : o.mask i = true)
    (r : List (List Char)) (hr : ∀ s ∈ r, s.length = n + 6 ∧ s.getLast? = some ' ' ∧ ∀ c ∈ s, (isGraph c = true ∧ c ≠ '\\') ∨ c = ' ') :
    ∀ w : W, (∀ i, Even (w.h i)) → (w.h i).cpos ≤ M → ∃ bs : List Bool, bs.length = r.length ∧
      ((run width w (r.map fun s => (o, Op.str s))).h i).text = (w.h i).text ++ laid (bs.zip r) ∧
      ∃ t ts, segs (bs.zip r) = t :: ts ∧ (w.h i).cpos + t.length ≤ M ∧ ∀ s ∈ ts, s.length + 1 ≤ M := by
  induction r with
  | nil => intro w _ h; exact ⟨[], rfl, by simp [run, laid], [], [], rfl, by simpa using h, by simp⟩
  | cons s r ih =>
    intro w hw h
    obtain ⟨h1, h2, h3⟩ := hr s (by simp)
    have hink : ∀ c ∈ s, Ink c := fun c hc => (clean_ink c (h3 c hc)).1
    have hnl : '\n' ∉ s := fun hn => (clean_ink _ (h3 _ hn)).2 rfl
    have hev : ∀ i, Even ((puts width o s w).h i) := fun j =>
      column_kept width [(o, .str s)] (by simpa [Proper] using ⟨hp, hink⟩) w hw j
    have hsh : shown s = s := by simp [shown, h2]
    have hneed : need s = s.length := by simp [need, h2]
    have htext := congrArg H.text (puts_at width o s w i hink hp)
    rw [hm, if_pos rfl, textH_text, hsh] at htext
    have hcol := hev i
    unfold Out.Even at hcol
    rw [htext, column_text _ _ hnl] at hcol
    have hrun : run width w ((s :: r).map fun s => (o, Op.str s)) = run width (puts width o s w) (r.map fun s => (o, Op.str s)) := rfl
    cases hb : breaks width s (w.h i) with
    | true =>
      rw [hb, if_pos rfl, breakH_text] at htext hcol
      have hc1 : column ((w.h i).text ++ ['\n', '+']) = 1 := by
        rw [show ['\n', '+'] = ['\n'] ++ ['+'] from rfl, ← List.append_assoc, column_snoc, column_snoc]
        simp
      rw [hc1] at hcol
      obtain ⟨bs, b1, b2, t, ts, b3, b4, b5⟩ := ih (fun s hs => hr s (by simp [hs])) (puts width o s w) hev (by omega)
      refine ⟨true :: bs, by simp [b1], ?_, [], (s ++ t) :: ts, by simp [segs, b3], by simpa using h, ?_⟩
      · rw [hrun, b2, htext]; simp [laid]
      · intro x hx
        rcases List.mem_cons.mp hx with rfl | hx
        · rw [List.length_append]; omega
        · exact b5 x hx
    | false =>
      rw [hb] at htext hcol
      simp only [Bool.false_eq_true, if_false] at htext hcol
      have hc1 : column (w.h i).text = (w.h i).cpos := (hw i).symm
      rw [hc1] at hcol
      have hbound : (w.h i).cpos + s.length ≤ M := by
        simp only [breaks, Bool.and_eq_false_iff, decide_eq_false_iff_not, not_not, hneed] at hb
        rcases hb with hb | hb <;> omega
      obtain ⟨bs, b1, b2, t, ts, b3, b4, b5⟩ := ih (fun s hs => hr s (by simp [hs])) (puts width o s w) hev (by omega)
      refine ⟨false :: bs, by simp [b1], ?_, s ++ t, ts, by simp [segs, b3], ?_, b5⟩
      · rw [hrun, b2, htext]; simp [laid]
      · rw [List.length_append]; omega

/-- **C80, broken rows**: however long a row is, if the width is not beyond the buffer of the reader, the row written to a file and read
again by the program has the words of its cells in order. -/
theorem row_broken (width k n : ℕ) (hk : width ≤ k + 1) (hk2 : 27 ≤ k) (h4 : 4 ≤ n) (h20 : n ≤ 20) (fmt : Fmt) (hf : fmt.fill = false) (x : ℚ)
    (vs : List ℚ) (r : List (List Char)) (hr : row n fmt x vs = some r) (o : Om) (hp : o.pack = false) (w : W) (hw : ∀ i, Even (w.h i)) (i : ℕ)
    (hm : o.mask i = true) (h0 : column (w.h i).text = 0) :
    ∃ t, ((run width w (ops o r)).h i).text = (w.h i).text ++ t ∧
      ∃ q, Lines.getlines k t = some (q, []) ∧ words q [] = r.flatMap fun s => words s [] := by
  have hcell := row_cell n h4 (by omega) fmt hf x vs r hr
  obtain ⟨bs, b1, b2, t, ts, b3, b4, b5⟩ := row_laid width n k hk (by omega) o hp i hm r hcell w hw (by rw [hw i, h0]; omega)
  refine ⟨laid (bs.zip r) ++ ['\n'], ?_, ?_⟩
  · unfold ops
    rw [run_append, run_nl _ _ _ _ hm hp, b2, List.append_assoc]
  have hsnd : (bs.zip r).map Prod.snd = r := List.map_snd_zip (by omega)
  have hflat : flat (bs.zip r) = r.flatten := by
    unfold flat
    rw [List.flatMap_def, hsnd]
  have hchar : ∀ s ∈ segs (bs.zip r), ∀ c ∈ s, (isGraph c = true ∧ c ≠ '\\') ∨ c = ' ' := by
    intro s hs c hc
    have : c ∈ (segs (bs.zip r)).flatten := List.mem_flatten.mpr ⟨s, hs, hc⟩
    rw [segs_flat, hflat] at this
    obtain ⟨u, hu, hcu⟩ := List.mem_flatten.mp this
    exact (hcell u hu).2.2 c hcu
  have hbr : ∀ s ∈ segs (bs.zip r), (Lines.trim s).getLast? ≠ some '\\' := by
    intro s hs h
    have h1 : '\\' ∈ Lines.trim s := List.mem_of_getLast? h
    have h2 : '\\' ∈ s := List.mem_reverse.mp ((List.dropWhile_sublist _).mem (List.mem_reverse.mp h1))
    rcases hchar s hs _ h2 with ⟨-, h⟩ | h
    · exact h rfl
    · revert h; decide
  have hline : ∀ s ∈ asLines (segs (bs.zip r)), '\n' ∉ s ∧ s.length ≤ k := by
    intro s hs
    have hno : ∀ s ∈ segs (bs.zip r), '\n' ∉ s := fun s hs hn => (clean_ink _ (hchar s hs _ hn)).2 rfl
    rw [b3] at hs hno
    rcases List.mem_cons.mp hs with rfl | hs
    · exact ⟨hno _ (by simp), by omega⟩
    · obtain ⟨u, hu, rfl⟩ := List.mem_map.mp hs
      refine ⟨?_, by have := b5 u hu; simpa using this⟩
      intro hn
      rcases List.mem_cons.mp hn with hn | hn
      · revert hn; decide
      · exact hno u (by simp [hu]) hn
  obtain ⟨q, q1, q2⟩ := words_read k (bs.zip r) hline hbr (spaced_cells bs r (fun s hs => (hcell s hs).2.1) true rfl) (by
    intro y hy c hc
    have : y.2 ∈ r := (List.of_mem_zip hy).2
    rcases (hcell _ this).2.2 c hc with ⟨h, -⟩ | rfl
    · exact .inl h
    · exact .inr (by decide))
  exact ⟨q, q1, by rw [q2, hflat, words_cells r (fun s hs => (hcell s hs).2.1)]⟩

/-- a width of 20 columns -/
example : (20 ≤ 4094 + 1) ∧ (row 5 ⟨true, false, false⟩ (1 / 1000) [5, -3 / 100]).isSome = true := by decide +kernel

/-! ## Where it fails -/

/-- **C80 fails for 3 digits**, the least that can be asked for: a number with an exponent of two digits fills its column, and a
negative one behind it makes one word with it. -/
theorem run_together :
    row 3 ⟨true, false, false⟩ 1230000000000 [-4] = some [[' ', '1', '.', '2', '3', 'E', '+', '1', '2'], ['-', '4', '.', ' ', ' ', ' ', ' ', ' ', ' ']] ∧
    words ([[' ', '1', '.', '2', '3', 'E', '+', '1', '2'], ['-', '4', '.', ' ', ' ', ' ', ' ', ' ', ' ']] : List (List Char)).flatten [] =
      [['1', '.', '2', '3', 'E', '+', '1', '2', '-', '4', '.']] := by
  constructor <;> decide +kernel

/-- **C80 fails for long labels**: the heading behind a label wider than its column begins that many characters later than its values. -/
theorem long_shifts (n : ℕ) (h20 : n ≤ 20) (col1 label next : List Char) (h1 : col1.length ≤ n + 5) (h2 : n + 5 < label.length)
    (h3 : label.length < 4095) (h4 : next.length ≤ n + 5) :
    ∃ h, head n col1 [label, next] = some h ∧ h.flatten.drop (2 * (n + 6) + (label.length - (n + 5))) = ' ' :: padded (n + 5) next := by
  have hc : headCell n ' ' label = some (' ' :: label) := by
    unfold headCell form buffer
    rw [if_pos (by simp; omega), show min (n + 5) (4096 - 10) - label.length = 0 by omega]
    simp
  refine ⟨['#' :: padded (n + 5) col1, ' ' :: label, ' ' :: padded (n + 5) next], ?_, ?_⟩
  · unfold head
    rw [headCell_eq n (by omega) '#' col1 h1]
    simp [List.mapM_cons, hc, headCell_eq n (by omega) ' ' next h4]
  · have e : (('#' :: padded (n + 5) col1) ++ (' ' :: label)).length = 2 * (n + 6) + (label.length - (n + 5)) := by
      simp [padded]; omega
    rw [← e]
    simp only [List.flatten_cons, List.flatten_nil, List.append_nil]
    rw [← List.append_assoc, List.drop_left]

example : (['v', '(', 'x', '1', '.', 'x', '2', '.', 'o', 'u', 't', ')'] : List Char).length > 5 + 5 := by decide

/-- **C80 fails for labels that do not fit in the buffer**: they are written behind its end. -/
theorem label_overflows (n : ℕ) (c : Char) (label : List Char) (h : 4095 ≤ label.length) : headCell n c label = none := by
  unfold headCell form buffer
  rw [if_neg]
  simp; omega

example : 4095 ≤ (List.replicate 5000 'a').length := by rw [List.length_replicate]; omega

end Gnucap.Table
