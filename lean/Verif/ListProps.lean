import Verif.ListModel
import Verif.NameThms

/-! # What `list` lists (C98) -/
set_option linter.unusedSimpArgs false
namespace Gnucap.ListCmd
open Gnucap.Scan Gnucap.Spice Gnucap.Names Gnucap.Wmatch

/-! ## What a line is -/

/-- a name as `list` can be given it: something graphic, without the characters that end a name, and without dots -/
def Plain (a : Name) : Prop := a ≠ [] ∧ ∀ c ∈ a, isGraph c = true ∧ c ∉ [',', '=', '(', ')', '[', ']'] ∧ c ≠ '.'

/-- blanks -/
def Blanks (b : List Char) : Prop := ∀ c ∈ b, isSpace c = true

/-- what may stand behind a name: blanks, with or without one comma -/
def Gap (g : List Char) : Prop := Blanks g ∨ ∃ b b', g = b ++ ',' :: b' ∧ Blanks b ∧ Blanks b'

/-- names with gaps behind them; only the last gap may be nothing -/
def Line : List (Name × List Char) → Prop
  | [] => True
  | [x] => Plain x.1 ∧ Gap x.2
  | x :: y :: l => Plain x.1 ∧ Gap x.2 ∧ x.2 ≠ [] ∧ Line (y :: l)

/-- the line -/
def text (l : List (Name × List Char)) : List Char := l.flatMap fun x => x.1 ++ x.2

/-- the positions of the parts whose label matches a name -/
def fitting (ci : Bool) (root : List Part) (a : Name) : List ℕ :=
  (List.range root.length).filter fun i => match root[i]? with | some p => wmatch ci p.label a | none => false

/-! ## Reading -/

theorem space_not_graph {c : Char} (h : isSpace c = true) : isGraph c = false := by
  simp only [isSpace, Bool.or_eq_true, beq_iff_eq, Bool.and_eq_true, decide_eq_true_eq] at h
  simp only [isGraph, Bool.and_eq_false_iff, decide_eq_false_iff_not]
  omega

theorem skipbl_blanks {b : List Char} (hb : Blanks b) (t : List Char) : skipbl (b ++ t) = skipbl t := by
  induction b with
  | nil => rfl
  | cons c b ih =>
    rw [List.cons_append, skipbl, space_not_graph (hb c (by simp))]
    exact ih (fun x hx => hb x (by simp [hx]))

theorem skipbl_blank_end {b : List Char} (hb : Blanks b) : skipbl b = [] := by
  have := skipbl_blanks hb []
  simpa [skipbl] using this

/-- what may come next: nothing, or something graphic that is no comma -/
def Next (t : List Char) : Prop := ∀ c, t.head? = some c → isGraph c = true ∧ c ≠ ','

theorem Next.skipbl {t : List Char} (h : Next t) : skipbl t = t := by
  cases t with
  | nil => rfl
  | cons c t => rw [Scan.skipbl, if_pos (h c rfl).1]

theorem skipcom_gap {g t : List Char} (hg : Gap g) (ht : Next t) : skipcom (g ++ t) = t := by
  rcases hg with hb | ⟨b, b', rfl, hb, hb'⟩
  · rw [skipcom, skipbl_blanks hb, ht.skipbl]
    split
    · rename_i r heq
      exact absurd rfl (ht ',' (by rfl)).2
    · rfl
  · rw [skipcom, List.append_assoc, skipbl_blanks hb, List.cons_append, Scan.skipbl]
    rw [if_pos (by decide)]
    simp only
    rw [skipbl_blanks hb', ht.skipbl]

theorem gap_head {g t : List Char} (hg : Gap g) (ht : t = [] ∨ g ≠ []) :
    ∀ c, (g ++ t).head? = some c → stops [',', '=', '(', ')', '[', ']'] c = true := by
  intro c hc
  cases g with
  | nil =>
    rcases ht with rfl | h
    · simp at hc
    · exact absurd rfl h
  | cons x g =>
    obtain rfl : x = c := by simpa using hc
    rcases hg with hb | ⟨b, b', hbb, hb, hb'⟩
    · simp [stops, hb x (by simp)]
    · cases b with
      | nil => simp at hbb; rw [hbb.1]; decide
      | cons y b => simp at hbb; rw [hbb.1]; simp [stops, hb y (by simp)]

theorem takeWhile_stop {α : Type} (f : α → Bool) (a r : List α) (ha : ∀ c ∈ a, f c = true) (hr : ∀ c, r.head? = some c → f c = false) :
    (a ++ r).takeWhile f = a ∧ (a ++ r).dropWhile f = r := by
  induction a with
  | nil =>
    cases r with
    | nil => simp
    | cons c r => simp [hr c rfl]
  | cons c a ih =>
    have := ih (fun x hx => ha x (by simp [hx]))
    simp [ha c (by simp), this.1, this.2]

/-- a name is read up to its gap -/
theorem label_read {a g t : List Char} (ha : Plain a) (hg : Gap g) (hn : t = [] ∨ g ≠ []) (ht : Next t) :
    label (a ++ g ++ t) = (a, t) := by
  obtain ⟨h1, h2⟩ := ha
  have hs : skipbl (a ++ g ++ t) = a ++ (g ++ t) := by
    cases a with
    | nil => exact absurd rfl h1
    | cons c a => simp [skipbl, (h2 c (by simp)).1]
  have hT := takeWhile_stop (fun c => !stops [',', '=', '(', ')', '[', ']'] c) a (g ++ t)
    (by
      intro c hc
      obtain ⟨i1, i2, _⟩ := h2 c hc
      have : isSpace c = false := by
        by_contra h
        rw [space_not_graph (by simpa using h)] at i1; cases i1
      simp only [stops, this, Bool.false_or, Bool.not_eq_true', List.contains_eq_mem, decide_eq_false_iff_not]
      exact i2)
    (by
      intro c hc
      rw [gap_head hg hn c hc]; rfl)
  rw [label, ctos]
  simp only [hs]
  cases a with
  | nil => exact absurd rfl h1
  | cons c a =>
    simp only [List.cons_append, List.lookup] at hT ⊢
    rw [hT.1, hT.2, skipcom_gap hg ht]

theorem Line.next {l : List (Name × List Char)} (hl : Line l) : Next (text l) := by
  intro c hc
  have key : ∀ x : Name × List Char, ∀ r : List Char, Plain x.1 → (x.1 ++ r).head? = some c → isGraph c = true ∧ c ≠ ',' := by
    rintro ⟨a, g⟩ r ⟨h1, h2⟩ hc
    cases a with
    | nil => exact absurd rfl h1
    | cons y a =>
      obtain rfl : y = c := by simpa using hc
      obtain ⟨i1, i2, _⟩ := h2 y (by simp)
      exact ⟨i1, by rintro rfl; exact i2 (by simp)⟩
  match l with
  | [] => simp [text] at hc
  | [x] =>
    refine key x x.2 hl.1 ?_
    simpa [text] using hc
  | x :: y :: l =>
    refine key x (x.2 ++ text (y :: l)) hl.1 ?_
    simpa [text] using hc

/-! ## The bounds are never met -/

theorem length_le_weights (l : List Part) : l.length ≤ weights l := by
  induction l with
  | nil => simp
  | cons p l ih =>
    have : 1 ≤ weight p := by cases p; simp [weight]
    rw [List.length_cons, weights]
    omega

theorem weights_parts (p : Part) : weight p = 1 + weights p.parts := by cases p; simp [weight, Part.parts]

theorem weights_drop (l : List Part) (i start : ℕ) (p : Part) (hs : start ≤ i) (hp : l[i]? = some p) :
    weights (l.drop (i + 1)) + weight p ≤ weights (l.drop start) := by
  induction l generalizing i start with
  | nil => simp at hp
  | cons q l ih =>
    cases i with
    | zero =>
      obtain rfl : q = p := by simpa using hp
      obtain rfl : start = 0 := by omega
      simp [weights]; omega
    | succ i =>
      simp only [List.getElem?_cons_succ] at hp
      cases start with
      | zero =>
        have := ih i 0 (by omega) hp
        simp only [List.drop_succ_cons, List.drop_zero, weights] at this ⊢
        omega
      | succ start =>
        have := ih i start (by omega) hp
        simpa using this

/-- a place that is there -/
def There : List Part → List ℕ → Prop
  | _, [] => False
  | ps, [i] => ∃ p, ps[i]? = some p
  | ps, i :: j :: is => ∃ p, ps[i]? = some p ∧ There p.parts (j :: is)

/-- what is found is there, at or behind the start, in the list that was searched or inside -/
theorem findBranch_there (ci : Bool) : ∀ (gas : ℕ) (s : Name) (parts : List Part) (start : ℕ) (path r : List ℕ),
    findBranch ci gas s parts start path = some r → ∃ i is, r = path ++ i :: is ∧ start ≤ i ∧ There parts (i :: is) := by
  intro gas
  induction gas with
  | zero =>
    intro s parts start path r h
    rw [findBranch] at h
    by_cases hs : s = []
    · simp [hs] at h
    simp only [if_neg hs] at h
    obtain ⟨p, hp, hf⟩ := List.exists_of_findSome?_eq_some h
    obtain ⟨k, hk⟩ := List.getElem?_of_mem hp
    rw [List.getElem?_drop, List.getElem?_zipIdx] at hk
    obtain ⟨q, hq, rfl⟩ := Option.map_eq_some_iff.mp hk
    simp only [Nat.zero_add] at hf
    cases hl : cutLast s with
    | none =>
      simp only [hl, Option.map_none] at hf
      split at hf
      · exact ⟨start + k, [], (Option.some.inj hf).symm, by omega, q, hq⟩
      · cases hf
    | some w =>
      simp only [hl, Option.map_some] at hf
      split at hf
      · split at hf <;> cases hf
      · cases hf
  | succ gas ih =>
    intro s parts start path r h
    rw [findBranch] at h
    by_cases hs : s = []
    · simp [hs] at h
    simp only [if_neg hs] at h
    obtain ⟨p, hp, hf⟩ := List.exists_of_findSome?_eq_some h
    obtain ⟨k, hk⟩ := List.getElem?_of_mem hp
    rw [List.getElem?_drop, List.getElem?_zipIdx] at hk
    obtain ⟨q, hq, rfl⟩ := Option.map_eq_some_iff.mp hk
    simp only [Nat.zero_add] at hf
    cases hl : cutLast s with
    | none =>
      simp only [hl, Option.map_none] at hf
      split at hf
      · exact ⟨start + k, [], (Option.some.inj hf).symm, by omega, q, hq⟩
      · cases hf
    | some w =>
      simp only [hl, Option.map_some] at hf
      split at hf
      · split at hf
        · obtain ⟨j, js, hr, _, hT⟩ := ih _ _ _ _ _ hf
          exact ⟨start + k, j :: js, by rw [hr]; simp, by omega, q, hq, hT⟩
        · cases hf
      · cases hf

theorem partsAt_append (l : List Part) (a b : List ℕ) : partsAt l (a ++ b) = partsAt (partsAt l a) b := by
  induction a generalizing l with
  | nil => rfl
  | cons i a ih =>
    rw [List.cons_append, partsAt, partsAt]
    cases l[i]? with
    | none => cases b <;> simp [partsAt]
    | some p => exact ih p.parts

/-- behind a place found there is less left than before -/
theorem less (parts : List Part) (i : ℕ) (is : List ℕ) (start : ℕ) (hs : start ≤ i) (hT : There parts (i :: is)) :
    weights ((partsAt parts (i :: is).dropLast).drop ((i :: is).getLast?.getD 0 + 1)) < weights (parts.drop start) := by
  induction is generalizing parts i start with
  | nil =>
    obtain ⟨p, hp⟩ := hT
    have := weights_drop parts i start p hs hp
    have h1 := weights_parts p
    simp only [List.dropLast_singleton, partsAt, List.getLast?_singleton, Option.getD_some]
    omega
  | cons j js ih =>
    obtain ⟨p, hp, hT'⟩ := hT
    have := weights_drop parts i start p hs hp
    have h1 := weights_parts p
    have h2 := ih p.parts j 0 (Nat.zero_le _) hT'
    rw [List.dropLast_cons_cons, partsAt, hp, List.getLast?_cons_cons]
    simp only [List.drop_zero] at h2 ⊢
    omega

/-- **C98, the listing ends**: for any name, with any dots, the search that goes on behind each place found stops by itself: the
bound on the number of places is never met. -/
theorem hits_end (ci : Bool) (s : Name) (root : List Part) : ∀ (n : ℕ) (path : List ℕ) (start : ℕ),
    weights ((partsAt root path).drop start) < n →
    modifyHits ci s root (n + 1) path start = modifyHits ci s root n path start := by
  intro n
  induction n with
  | zero => intro path start h; omega
  | succ n ih =>
    intro path start h
    rw [modifyHits, modifyHits]
    cases hf : findBranch ci s.length s (partsAt root path) start path with
    | none => rfl
    | some r =>
      obtain ⟨i, is, rfl, hi, hT⟩ := findBranch_there ci _ _ _ _ _ _ hf
      have hl := less _ i is start hi hT
      simp only
      congr 1
      apply ih
      rw [List.dropLast_append_of_ne_nil (by simp), partsAt_append]
      have : (path ++ i :: is).getLast?.getD 0 = (i :: is).getLast?.getD 0 := by
        rw [List.getLast?_append_of_ne_nil _ (by simp)]
      rw [this]
      omega

theorem skipbl_shorter (s : List Char) : (skipbl s).length ≤ s.length := by
  induction s with
  | nil => simp [skipbl]
  | cons c s ih =>
    rw [skipbl]
    split
    · exact le_refl _
    · simp; omega

theorem skipcom_shorter (s : List Char) : (skipcom s).length ≤ s.length := by
  have h := skipbl_shorter s
  rw [skipcom]
  split
  · rename_i r heq
    rw [heq] at h
    have := skipbl_shorter r
    simp at h; omega
  · exact h

theorem label_shorter {s : List Char} (h : (label s).1 ≠ []) : (label s).2.length < s.length := by
  have h0 := skipbl_shorter s
  rw [label, ctos] at h ⊢
  cases hs : skipbl s with
  | nil => rw [hs] at h; simp at h
  | cons c r =>
    rw [hs] at h h0
    simp only [List.lookup] at h ⊢
    have h1 := skipcom_shorter ((c :: r).dropWhile fun c => !stops [',', '=', '(', ')', '[', ']'] c)
    have h2 : ((c :: r).takeWhile fun c => !stops [',', '=', '(', ')', '[', ']'] c).length +
        ((c :: r).dropWhile fun c => !stops [',', '=', '(', ')', '[', ']'] c).length = (c :: r).length := by
      rw [← List.length_append, List.takeWhile_append_dropWhile]
    have h3 := List.length_pos_of_ne_nil h
    omega

/-- **C98, the line ends**: for any line, every argument that is heeded takes a name off the line: the bound on the number of
arguments is never met. -/
theorem args_end (ci : Bool) (root : List Part) : ∀ (n : ℕ) (s : List Char), s.length < n → args ci root (n + 1) s = args ci root n s := by
  intro n
  induction n with
  | zero => intro s h; omega
  | succ n ih =>
    intro s h
    rw [args, args]
    cases hf : find ci root s [] 0 with
    | none => rfl
    | some r =>
      obtain ⟨r, t⟩ := r
      rw [find, Option.map_eq_some_iff] at hf
      obtain ⟨q, hq, e⟩ := hf
      have hne : (label s).1 ≠ [] := by
        intro h0; rw [h0, findBranch] at hq; simp at hq
      have := label_shorter hne
      simp only [Prod.mk.injEq] at e
      rw [← e.2]
      simp only
      rw [ih _ (by omega)]

/-! ## Names -/

theorem Plain.ne {a : Name} (h : Plain a) : a ≠ [] := h.1
theorem Plain.nodot {a : Name} (h : Plain a) : '.' ∉ a := fun hd => (h.2 '.' hd).2.2 rfl

theorem mem_fitting {ci : Bool} {root : List Part} {a : Name} {i : ℕ} :
    i ∈ fitting ci root a ↔ ∃ p, root[i]? = some p ∧ wmatch ci p.label a = true := by
  rw [fitting, List.mem_filter, List.mem_range]
  constructor
  · rintro ⟨hi, h⟩
    rw [List.getElem?_eq_getElem hi] at h ⊢
    exact ⟨_, rfl, h⟩
  · rintro ⟨p, hp, hm⟩
    refine ⟨?_, by rw [hp]; exact hm⟩
    by_contra hc
    rw [List.getElem?_eq_none (by omega)] at hp
    cases hp

theorem fitting_sorted (ci : Bool) (root : List Part) (a : Name) : (fitting ci root a).Pairwise (· < ·) :=
  List.Pairwise.filter _ (List.pairwise_lt_range)

/-- two lists in order with the same members are the same -/
theorem sorted_same : ∀ (l m : List ℕ), l.Pairwise (· < ·) → m.Pairwise (· < ·) → (∀ i, i ∈ l ↔ i ∈ m) → l = m
  | [], [], _, _, _ => rfl
  | [], y :: m, _, _, h => absurd ((h y).mpr (by simp)) (by simp)
  | x :: l, [], _, _, h => absurd ((h x).mp (by simp)) (by simp)
  | x :: l, y :: m, hl, hm, h => by
    rw [List.pairwise_cons] at hl hm
    have hxy : x = y := by
      rcases List.mem_cons.mp ((h x).mp (by simp)) with e | e
      · exact e
      rcases List.mem_cons.mp ((h y).mpr (by simp)) with e' | e'
      · exact e'.symm
      have := hm.1 x e; have := hl.1 y e'; omega
    subst hxy
    congr 1
    refine sorted_same l m hl.2 hm.2 fun i => ?_
    have := h i
    simp only [List.mem_cons] at this
    constructor
    · intro hi
      rcases this.mp (.inr hi) with e | e
      · have := hl.1 i hi; omega
      · exact e
    · intro hi
      rcases this.mpr (.inr hi) with e | e
      · have := hm.1 i hi; omega
      · exact e

/-- all that match a name without dots, once each and in order -/
theorem hits_plain (ci : Bool) {a : Name} (h1 : a ≠ []) (h2 : '.' ∉ a) (root : List Part) :
    modifyHits ci a root (weights root + 1) [] 0 = (fitting ci root a).map fun i => [i] := by
  obtain ⟨H1, H2, H3⟩ := modify_plain ci h1 h2 root (weights root + 1) 0 (by have := length_le_weights root; omega)
  set l := modifyHits ci a root (weights root + 1) [] 0 with hl
  have e : l = (l.map fun r => r.headD 0).map fun i => [i] := by
    rw [List.map_map]
    conv_lhs => rw [← List.map_id l]
    apply List.map_congr_left
    intro r hr
    obtain ⟨i, rfl, _⟩ := H1 r hr
    rfl
  have e2 : (l.map fun r => r.headD 0) = fitting ci root a := by
    apply sorted_same _ _ (List.pairwise_map.mpr H3) (fitting_sorted ci root a)
    intro i
    rw [mem_fitting, List.mem_map]
    constructor
    · rintro ⟨r, hr, rfl⟩
      obtain ⟨k, rfl, _⟩ := H1 r hr
      exact ((H2 k).mp hr).2
    · intro h
      exact ⟨[i], (H2 i).mpr ⟨Nat.zero_le _, h⟩, rfl⟩
  rw [e, e2]

/-- the place found first -/
theorem find_plain (ci : Bool) (root : List Part) {s : List Char} {a t : List Char} (hs : label s = (a, t)) (h1 : a ≠ []) (h2 : '.' ∉ a)
    (start : ℕ) :
    match find ci root s [] start with
    | some (r, t') => t' = t ∧ ∃ i, r = [i] ∧ i ∈ fitting ci root a ∧ start ≤ i ∧ ∀ j ∈ fitting ci root a, start ≤ j → i ≤ j
    | none => ∀ j ∈ fitting ci root a, j < start := by
  have F := findBranch_plain ci h1 h2 root start
  rw [find, hs]
  simp only [partsAt]
  cases hf : findBranch ci a.length a root start [] with
  | none =>
    rw [hf] at F
    simp only [Option.map_none]
    intro j hj
    obtain ⟨p, hp, hm⟩ := mem_fitting.mp hj
    by_contra hc
    rw [F j p (by omega) hp] at hm; cases hm
  | some r =>
    rw [hf] at F
    obtain ⟨i, p, rfl, hi, hp, hm, hmin⟩ := F
    simp only [Option.map_some]
    refine ⟨trivial, i, rfl, mem_fitting.mpr ⟨p, hp, hm⟩, hi, ?_⟩
    intro j hj hsj
    obtain ⟨q, hq, hm'⟩ := mem_fitting.mp hj
    by_contra hc
    rw [hmin j q hsj (by omega) hq] at hm'; cases hm'

theorem text_cons (x : Name × List Char) (l : List (Name × List Char)) : text (x :: l) = x.1 ++ x.2 ++ text l := by
  simp [text]

/-- a line, its first name read -/
theorem Line.label {x : Name × List Char} {l : List (Name × List Char)} (h : Line (x :: l)) :
    label (text (x :: l)) = (x.1, text l) ∧ Plain x.1 ∧ Line l := by
  rw [text_cons]
  cases l with
  | nil => exact ⟨label_read h.1 h.2 (.inl rfl) (by intro c hc; simp [text] at hc), h.1, trivial⟩
  | cons y l => exact ⟨label_read h.1 h.2.1 (.inr h.2.2.1) h.2.2.2.next, h.1, h.2.2.2⟩

/-- the arguments that are heeded: up to the first that matches nothing -/
theorem args_line (ci : Bool) (root : List Part) : ∀ (l : List (Name × List Char)) (n : ℕ), Line l → l.length < n →
    args ci root n (text l) =
      (l.takeWhile fun x => decide (fitting ci root x.1 ≠ [])).flatMap fun x => (fitting ci root x.1).map fun i => [i] := by
  intro l
  induction l with
  | nil =>
    intro n _ hn
    cases n with
    | zero => simp at hn
    | succ n => simp [args, find, text, ListCmd.label, ctos, skipbl, findBranch]
  | cons x l ih =>
    intro n hl hn
    cases n with
    | zero => simp at hn
    | succ n =>
      obtain ⟨h1, h2, h3⟩ := hl.label
      have F := find_plain ci root h1 h2.ne h2.nodot 0
      rw [args]
      cases hf : find ci root (text (x :: l)) [] 0 with
      | none =>
        rw [hf] at F
        have : fitting ci root x.1 = [] := by
          rw [List.eq_nil_iff_forall_not_mem]
          intro j hj; have := F j hj; omega
        simp [this]
      | some r =>
        obtain ⟨r, t⟩ := r
        rw [hf] at F
        obtain ⟨rfl, i, rfl, hi, _⟩ := F
        have hne : fitting ci root x.1 ≠ [] := by rintro h; rw [h] at hi; simp at hi
        simp only
        rw [h1]
        simp only
        rw [hits_plain ci h2.ne h2.nodot, ih n h3 (by simp at hn; omega), List.takeWhile_cons, if_pos (by simpa using hne),
          List.flatMap_cons]

theorem Line.length_le : ∀ {l : List (Name × List Char)}, Line l → l.length ≤ (text l).length
  | [], _ => by simp [text]
  | [x], h => by
    have : 1 ≤ x.1.length := List.length_pos_of_ne_nil h.1.ne
    simp [text]; omega
  | x :: y :: l, h => by
    have : 1 ≤ x.1.length := List.length_pos_of_ne_nil h.1.ne
    have := h.2.2.2.length_le
    rw [text_cons]
    simp at this ⊢; omega

/-- does not begin with a dash -/
def NoDash (s : List Char) : Prop := s.head? ≠ some '-'

theorem NoDash.match1 {s : List Char} (h : NoDash s) : match1 ['-'] s = false := by
  cases s with
  | nil => rfl
  | cons c s =>
    have : c ≠ '-' := by rintro rfl; exact h rfl
    simp [Spice.match1, this]

/-- **C98, names**: a line of names (wildcards allowed, no dots), in which neither the first nor the second begins with a dash,
lists for each name all parts of the circuit whose label matches, once each and in the order of the circuit, name after name,
up to the first name that matches nothing.  If that is the first name, the command fails and lists nothing. -/
theorem names_listed (ci : Bool) (root : List Part) (b : List Char) (x : Name × List Char) (l : List (Name × List Char)) (hb : Blanks b)
    (hl : Line (x :: l)) (h1 : NoDash x.1) (h2 : NoDash (text l)) :
    list ci root (b ++ text (x :: l)) =
      if fitting ci root x.1 = [] then .cant
      else .done (((x :: l).takeWhile fun y => decide (fitting ci root y.1 ≠ [])).flatMap
        fun y => (fitting ci root y.1).map fun i => [i]) := by
  obtain ⟨e1, e2, e3⟩ := hl.label
  have hs : skipbl (b ++ text (x :: l)) = text (x :: l) := by rw [skipbl_blanks hb, hl.next.skipbl]
  have hne : text (x :: l) ≠ [] := by
    rw [text_cons]; intro h; exact e2.ne (by simp at h; exact h.1)
  have hd : NoDash (text (x :: l)) := by
    rw [text_cons]
    cases hx : x.1 with
    | nil => exact absurd hx e2.ne
    | cons c a => rw [hx] at h1; simpa [NoDash] using h1
  rw [list, hs, if_neg hne, if_neg (by rw [hd.match1]; simp)]
  have F := find_plain ci root e1 e2.ne e2.nodot 0
  cases hf : find ci root (text (x :: l)) [] 0 with
  | none =>
    rw [hf] at F
    have : fitting ci root x.1 = [] := by
      rw [List.eq_nil_iff_forall_not_mem]
      intro j hj; have := F j hj; omega
    rw [if_pos this]
  | some r =>
    obtain ⟨r, t⟩ := r
    rw [hf] at F
    obtain ⟨rfl, i, rfl, hi, _⟩ := F
    have hne : fitting ci root x.1 ≠ [] := by rintro h; rw [h] at hi; simp at hi
    rw [if_neg hne]
    simp only
    rw [behind, if_neg (by rw [h2.match1]; simp), args_line ci root (x :: l) _ hl (by have := hl.length_le; omega)]

/-- **C98, names that are all there**: if every name matches something, what is listed is all that was asked for. -/
theorem names_all (ci : Bool) (root : List Part) (b : List Char) (x : Name × List Char) (l : List (Name × List Char)) (hb : Blanks b)
    (hl : Line (x :: l)) (h1 : NoDash x.1) (h2 : NoDash (text l)) (h : ∀ y ∈ x :: l, fitting ci root y.1 ≠ []) :
    list ci root (b ++ text (x :: l)) = .done ((x :: l).flatMap fun y => (fitting ci root y.1).map fun i => [i]) := by
  rw [names_listed ci root b x l hb hl h1 h2, if_neg (h x (by simp))]
  congr 2
  have := (takeWhile_stop (fun y : Name × List Char => decide (fitting ci root y.1 ≠ [])) (x :: l) [] (by
    intro y hy
    simpa using h y hy) (by simp)).1
  rwa [List.append_nil] at this

/-- **C98, no names**: without arguments every part of the circuit is listed, in order. -/
theorem all_listed (ci : Bool) (root : List Part) (b : List Char) (hb : Blanks b) :
    list ci root b = .done ((List.range root.length).map fun k => [k]) := by
  rw [list, if_pos (skipbl_blank_end hb)]

/-! ## Ranges -/

/-- the first match at or behind a position -/
def First (ci : Bool) (root : List Part) (a : Name) (start i : ℕ) : Prop :=
  i ∈ fitting ci root a ∧ start ≤ i ∧ ∀ j ∈ fitting ci root a, start ≤ j → i ≤ j

theorem between_top (i j : ℕ) : between [] i j = (List.range' i (j + 1 - i)).map fun k => [k] := by simp [between]

theorem dash_next {t : List Char} : Next ('-' :: t) := by
  intro c hc; obtain rfl : '-' = c := by simpa using hc
  decide

/-- behind the dash -/
theorem behind_dash (ci : Bool) (root : List Part) (s : List Char) (i : ℕ) (b2 : List Char) (hb2 : Blanks b2)
    (y : Name) (g r : List Char) (hy : Plain y) (hg : Gap g) (hr : r = [] ∨ g ≠ []) (hn : Next r) :
    (∀ j, First ci root y (i + 1) j → behind ci root s [i] ('-' :: (b2 ++ (y ++ g ++ r))) = .done ((List.range' i (j + 1 - i)).map fun k => [k])) ∧
    ((∀ j ∈ fitting ci root y, j ≤ i) → behind ci root s [i] ('-' :: (b2 ++ (y ++ g ++ r))) = .cant) := by
  have hY : Next (y ++ g ++ r) := by
    intro c hc
    cases y with
    | nil => exact absurd rfl hy.ne
    | cons d y =>
      obtain rfl : d = c := by simpa using hc
      obtain ⟨i1, i2, _⟩ := hy.2 d (by simp)
      exact ⟨i1, by rintro rfl; exact i2 (by simp)⟩
  have hs : skipbl (b2 ++ (y ++ g ++ r)) = y ++ g ++ r := by rw [skipbl_blanks hb2, hY.skipbl]
  have hne : y ++ g ++ r ≠ [] := by intro h; exact hy.ne (by simp at h; exact h.1)
  have hL := label_read hy hg hr hn
  have F := find_plain ci root hL hy.ne hy.nodot (i + 1)
  constructor
  · rintro j ⟨j1, j2, j3⟩
    rw [behind, if_pos (by simp [Spice.match1])]
    simp only [List.tail_cons, hs, if_neg hne, List.dropLast_singleton, List.getLast?_singleton, Option.getD_some]
    cases hf : find ci root (y ++ g ++ r) [] (i + 1) with
    | none => rw [hf] at F; have := F j j1; omega
    | some q =>
      obtain ⟨q, t⟩ := q
      rw [hf] at F
      obtain ⟨_, k, rfl, k1, k2, k3⟩ := F
      have : k = j := le_antisymm (k3 j j1 j2) (j3 k k1 k2)
      subst this
      simp [between_top]
  · intro h
    rw [behind, if_pos (by simp [Spice.match1])]
    simp only [List.tail_cons, hs, if_neg hne, List.dropLast_singleton, List.getLast?_singleton, Option.getD_some]
    cases hf : find ci root (y ++ g ++ r) [] (i + 1) with
    | none => rfl
    | some q =>
      obtain ⟨q, t⟩ := q
      rw [hf] at F
      obtain ⟨_, k, rfl, k1, k2, k3⟩ := F
      have := h k k1; omega

/-- the first name of a range -/
theorem range_start (ci : Bool) (root : List Part) (b : List Char) (x : Name) (g : List Char) (hb : Blanks b) (hx : Plain x) (hd : NoDash x)
    (hg : Gap g) (h0 : g ≠ []) (t : List Char) :
    (fitting ci root x = [] → list ci root (b ++ (x ++ g ++ '-' :: t)) = .cant) ∧
    ∀ i, First ci root x 0 i → list ci root (b ++ (x ++ g ++ '-' :: t)) = behind ci root (x ++ g ++ '-' :: t) [i] ('-' :: t) := by
  have hX : Next (x ++ g ++ '-' :: t) := by
    intro c hc
    cases x with
    | nil => exact absurd rfl hx.ne
    | cons d x =>
      obtain rfl : d = c := by simpa using hc
      obtain ⟨i1, i2, _⟩ := hx.2 d (by simp)
      exact ⟨i1, by rintro rfl; exact i2 (by simp)⟩
  have hs : skipbl (b ++ (x ++ g ++ '-' :: t)) = x ++ g ++ '-' :: t := by rw [skipbl_blanks hb, hX.skipbl]
  have hne : x ++ g ++ '-' :: t ≠ [] := by simp
  have hL := label_read hx hg (.inr h0) (dash_next (t := t))
  have hdd : NoDash (x ++ g ++ '-' :: t) := by
    cases x with
    | nil => exact absurd rfl hx.ne
    | cons c a => simpa [NoDash] using hd
  have F := find_plain ci root hL hx.ne hx.nodot 0
  rw [list, hs, if_neg hne, if_neg (by rw [hdd.match1]; simp)]
  cases hf : find ci root (x ++ g ++ '-' :: t) [] 0 with
  | none =>
    rw [hf] at F
    refine ⟨fun _ => rfl, ?_⟩
    rintro i ⟨i1, _, _⟩
    have := F i i1; omega
  | some q =>
    obtain ⟨q, t'⟩ := q
    rw [hf] at F
    obtain ⟨rfl, k, rfl, k1, k2, k3⟩ := F
    refine ⟨fun h => absurd k1 (by rw [h]; simp), ?_⟩
    rintro i ⟨i1, i2, i3⟩
    obtain rfl : k = i := le_antisymm (k3 i i1 (Nat.zero_le _)) (i3 k k1 (Nat.zero_le _))
    rfl

/-- **C98, a range**: `list x - y` lists from the first part matching `x` to the first part behind it that matches `y`, all parts
between included, whatever else stands in the line; it fails and lists nothing if there is no such part. -/
theorem range_listed (ci : Bool) (root : List Part) (b : List Char) (x : Name) (g b2 : List Char) (y : Name) (g2 r : List Char)
    (hb : Blanks b) (hx : Plain x) (hd : NoDash x) (hg : Gap g) (h0 : g ≠ []) (hb2 : Blanks b2) (hy : Plain y) (hg2 : Gap g2)
    (hr : r = [] ∨ g2 ≠ []) (hn : Next r) :
    (∀ i j, First ci root x 0 i → First ci root y (i + 1) j →
      list ci root (b ++ (x ++ g ++ '-' :: (b2 ++ (y ++ g2 ++ r)))) = .done ((List.range' i (j + 1 - i)).map fun k => [k])) ∧
    (fitting ci root x = [] → list ci root (b ++ (x ++ g ++ '-' :: (b2 ++ (y ++ g2 ++ r)))) = .cant) ∧
    (∀ i, First ci root x 0 i → (∀ j ∈ fitting ci root y, j ≤ i) →
      list ci root (b ++ (x ++ g ++ '-' :: (b2 ++ (y ++ g2 ++ r)))) = .cant) := by
  obtain ⟨S1, S2⟩ := range_start ci root b x g hb hx hd hg h0 (b2 ++ (y ++ g2 ++ r))
  refine ⟨?_, S1, ?_⟩
  · intro i j hi hj
    rw [S2 i hi]
    exact (behind_dash ci root _ i b2 hb2 y g2 r hy hg2 hr hn).1 j hj
  · intro i hi h
    rw [S2 i hi]
    exact (behind_dash ci root _ i b2 hb2 y g2 r hy hg2 hr hn).2 h

/-- **C98, to the end**: `list x -` lists from the first part matching `x` to the last of the circuit. -/
theorem rest_listed (ci : Bool) (root : List Part) (b : List Char) (x : Name) (g b2 : List Char) (hb : Blanks b) (hx : Plain x)
    (hd : NoDash x) (hg : Gap g) (h0 : g ≠ []) (hb2 : Blanks b2) (i : ℕ) (hi : First ci root x 0 i) :
    list ci root (b ++ (x ++ g ++ '-' :: b2)) = .done ((List.range' i (root.length - i)).map fun k => [k]) := by
  have hl : i < root.length := by
    obtain ⟨p, hp, _⟩ := mem_fitting.mp hi.1
    by_contra hc
    rw [List.getElem?_eq_none (by omega)] at hp; cases hp
  rw [(range_start ci root b x g hb hx hd hg h0 b2).2 i hi, behind, if_pos (by simp [Spice.match1])]
  simp only [List.tail_cons, skipbl_blank_end hb2, if_true, List.dropLast_singleton, List.getLast?_singleton, Option.getD_some,
    partsAt, between_top]
  rw [show root.length - 1 + 1 - i = root.length - i by omega]

/-- **C98, from the start**: `list - y` lists from the first part of the circuit to the first behind it that matches `y`, and
`list -` lists all. -/
theorem start_listed (ci : Bool) (root : List Part) (b : List Char) (b2 : List Char) (y : Name) (g2 r : List Char) (h : root ≠ [])
    (hb : Blanks b) (hb2 : Blanks b2) (hy : Plain y) (hg2 : Gap g2) (hr : r = [] ∨ g2 ≠ []) (hn : Next r) :
    (∀ j, First ci root y 1 j →
      list ci root (b ++ '-' :: (b2 ++ (y ++ g2 ++ r))) = .done ((List.range (j + 1)).map fun k => [k])) ∧
    ((∀ j ∈ fitting ci root y, j = 0) → list ci root (b ++ '-' :: (b2 ++ (y ++ g2 ++ r))) = .cant) ∧
    list ci root (b ++ '-' :: b2) = .done ((List.range root.length).map fun k => [k]) := by
  have S : ∀ t, list ci root (b ++ '-' :: t) = behind ci root ('-' :: t) [0] ('-' :: t) := by
    intro t
    have hs : skipbl (b ++ '-' :: t) = '-' :: t := by rw [skipbl_blanks hb, (dash_next (t := t)).skipbl]
    rw [list, hs, if_neg (by simp), if_pos (by simp [Spice.match1]), if_neg h]
  have hl : 0 < root.length := List.length_pos_of_ne_nil h
  refine ⟨?_, ?_, ?_⟩
  · intro j hj
    rw [S, (behind_dash ci root _ 0 b2 hb2 y g2 r hy hg2 hr hn).1 j hj, Nat.sub_zero, List.range_eq_range']
  · intro h
    rw [S, (behind_dash ci root _ 0 b2 hb2 y g2 r hy hg2 hr hn).2 (fun j hj => (h j hj).le)]
  · rw [S, behind, if_pos (by simp [Spice.match1])]
    simp only [List.tail_cons, skipbl_blank_end hb2, if_true, List.dropLast_singleton, List.getLast?_singleton, Option.getD_some,
      partsAt, between_top]
    rw [show root.length - 1 + 1 - 0 = root.length by omega, List.range_eq_range']

/-! ## Wrong -/

/-- **C98, false**: a name behind the first that matches nothing ends the listing, without a word: what stands behind it is not
listed (`list x n y`). -/
theorem unknown_silent (ci : Bool) (root : List Part) (x n y : Name) (hx : Plain x) (hn : Plain n) (hy : Plain y) (h1 : NoDash x)
    (h2 : NoDash n) (fx : fitting ci root x ≠ []) (fn : fitting ci root n = []) :
    list ci root (x ++ [' '] ++ (n ++ [' '] ++ y)) = .done ((fitting ci root x).map fun i => [i]) := by
  have hG : Gap [' '] := .inl (by intro c hc; obtain rfl : c = ' ' := by simpa using hc
                                  decide)
  have hl : Line [(x, [' ']), (n, [' ']), (y, [])] :=
    ⟨hx, hG, by simp, hn, hG, by simp, hy, .inl (by intro c hc; simp at hc)⟩
  have hd : NoDash (text [(n, [' ']), (y, [])]) := by
    cases n with
    | nil => exact absurd rfl hn.ne
    | cons c a => simpa [NoDash, text] using h2
  have := names_listed ci root [] (x, [' ']) [(n, [' ']), (y, [])] (by intro c hc; simp at hc) hl h1 hd
  rw [if_neg fx] at this
  simpa [text, fx, fn] using this

/-- **C98, false**: a range from a part to itself is refused, though the part is there (`list x - x`, `x` matching one part). -/
theorem range_same_refused (ci : Bool) (root : List Part) (x : Name) (hx : Plain x) (h1 : NoDash x) (i : ℕ) (hi : fitting ci root x = [i]) :
    list ci root (x ++ [' '] ++ '-' :: ([' '] ++ (x ++ [] ++ []))) = .cant := by
  have hB : Blanks [' '] := by intro c hc; obtain rfl : c = ' ' := by simpa using hc
                               decide
  have h0 : Blanks [] := by intro c hc; simp at hc
  exact (range_listed ci root [] x [' '] [' '] x [] [] h0 hx h1 (.inl hB) (by simp) hB hx (.inl h0) (.inl rfl)
    (by intro c hc; simp at hc)).2.2 i ⟨by simp [hi], Nat.zero_le _, by intro j hj _; simp [hi] at hj; omega⟩
    (by intro j hj; simp [hi] at hj; omega)

/-! ## A circuit -/

/-- a resistor, two instances of a subcircuit with a resistor of the same name, and another -/
def demo : List Part :=
  [.mk ['r', '1'] true false [] [],
   .mk ['x', '1'] true true [['0']] [.mk ['r', '1'] true false [] [], .mk ['c', '1'] true false [] []],
   .mk ['x', '2'] true true [['0']] [.mk ['r', '1'] true false [] []],
   .mk ['r', '2'] true false [] []]

/-- `Plain`, decided -/
theorem plain_of {a : Name} (h : (!a.isEmpty && a.all fun c => isGraph c && !([',', '=', '(', ')', '[', ']'].contains c) && !(c == '.')) = true) :
    Plain a := by
  simp only [Bool.and_eq_true, Bool.not_eq_true', List.isEmpty_eq_false_iff, List.all_eq_true, List.contains_eq_mem,
    decide_eq_false_iff_not, beq_eq_false_iff_ne] at h
  exact ⟨h.1, fun c hc => ⟨(h.2 c hc).1.1, (h.2 c hc).1.2, (h.2 c hc).2⟩⟩

theorem blank1 : Blanks [' '] := by
  intro c hc; obtain rfl : c = ' ' := by simpa using hc
  decide

theorem blank0 : Blanks [] := by intro c hc; simp at hc

/-- `list r*, x2` -/
example : list false demo (([] : List Char) ++ text [(['r', '*'], [',', ' ']), (['x', '2'], [])]) = .done [[0], [3], [2]] := by
  have hl : Line [(['r', '*'], [',', ' ']), (['x', '2'], [])] :=
    ⟨plain_of (by decide), .inr ⟨[], [' '], rfl, blank0, blank1⟩, by simp, plain_of (by decide), .inl blank0⟩
  have f1 : fitting false demo ['r', '*'] = [0, 3] := by decide +kernel
  have f2 : fitting false demo ['x', '2'] = [2] := by decide +kernel
  rw [names_all false demo [] _ _ blank0 hl (by simp [NoDash]) (by simp [NoDash, text]) (by
    intro y hy
    rcases List.mem_cons.mp hy with rfl | hy
    · simp [f1]
    · obtain rfl : y = (['x', '2'], []) := by simpa using hy
      simp [f2])]
  simp [f1, f2]

/-- `list n1 r1`: nothing is called `n1` -/
example : list false demo (([] : List Char) ++ text [(['n', '1'], [' ']), (['r', '1'], [])]) = .cant := by
  have hl : Line [(['n', '1'], [' ']), (['r', '1'], [])] :=
    ⟨plain_of (by decide), .inl blank1, by simp, plain_of (by decide), .inl blank0⟩
  rw [names_listed false demo [] _ _ blank0 hl (by simp [NoDash]) (by simp [NoDash, text]),
    if_pos (show fitting false demo ['n', '1'] = [] by decide +kernel)]

/-- `list x1 - r*` -/
example : list false demo ([] ++ (['x', '1'] ++ [' '] ++ '-' :: ([' '] ++ (['r', '*'] ++ [] ++ [])))) = .done [[1], [2], [3]] := by
  have f1 : fitting false demo ['x', '1'] = [1] := by decide +kernel
  have f2 : fitting false demo ['r', '*'] = [0, 3] := by decide +kernel
  rw [(range_listed false demo [] ['x', '1'] [' '] [' '] ['r', '*'] [] [] blank0 (plain_of (by decide)) (by simp [NoDash]) (.inl blank1)
    (by simp) blank1 (plain_of (by decide)) (.inl blank0) (.inl rfl) (by intro c hc; simp at hc)).1 1 3
    ⟨by simp [f1], Nat.zero_le _, by simp [f1]⟩ ⟨by simp [f2], by omega, by simp [f2]⟩]
  rfl

/-- `list x2 -` -/
example : list false demo ([] ++ (['x', '2'] ++ [' '] ++ '-' :: [])) = .done [[2], [3]] := by
  have f1 : fitting false demo ['x', '2'] = [2] := by decide +kernel
  rw [rest_listed false demo [] ['x', '2'] [' '] [] blank0 (plain_of (by decide)) (by simp [NoDash]) (.inl blank1) (by simp) blank0 2
    ⟨by simp [f1], Nat.zero_le _, by simp [f1]⟩]
  rfl

/-- `list - x1` -/
example : list false demo ([] ++ '-' :: ([' '] ++ (['x', '1'] ++ [] ++ []))) = .done [[0], [1]] := by
  have f1 : fitting false demo ['x', '1'] = [1] := by decide +kernel
  rw [(start_listed false demo [] [' '] ['x', '1'] [] [] (by simp [demo]) blank0 blank1 (plain_of (by decide)) (.inl blank0) (.inl rfl)
    (by intro c hc; simp at hc)).1 1 ⟨by simp [f1], le_refl _, by simp [f1]⟩]
  rfl

/-- `list` -/
example : list false demo [' '] = .done [[0], [1], [2], [3]] := by rw [all_listed false demo [' '] blank1]; rfl

/-- `list r1 n1 x2` stops at `n1` -/
example : list false demo (['r', '1'] ++ [' '] ++ (['n', '1'] ++ [' '] ++ ['x', '2'])) = .done [[0]] := by
  rw [unknown_silent false demo ['r', '1'] ['n', '1'] ['x', '2'] (plain_of (by decide)) (plain_of (by decide)) (plain_of (by decide))
    (by simp [NoDash]) (by simp [NoDash]) (by rw [show fitting false demo ['r', '1'] = [0] by decide +kernel]; simp) (by decide +kernel)]
  rw [show fitting false demo ['r', '1'] = [0] by decide +kernel]; rfl

/-- `list r1 - r1` -/
example : list false demo (['r', '1'] ++ [' '] ++ '-' :: ([' '] ++ (['r', '1'] ++ [] ++ []))) = .cant :=
  range_same_refused false demo ['r', '1'] (plain_of (by decide)) (by simp [NoDash]) 0 (by decide +kernel)

example : weights (partsAt demo []) = 7 := by decide +kernel
example : modifyHits false ['r', '*', '.', 'x', '1'] demo 9 [] 0 = [[1, 0]] := by
  rw [hits_end false _ demo 8 [] 0 (by decide +kernel)]
  decide +kernel

example : args false demo 5 ['r', '*', ' '] = [[0], [3]] := by
  rw [args_end false demo 4 ['r', '*', ' '] (by simp)]
  decide +kernel

/-- **C98, false**: a dash behind the second name is taken for a name, which is not found: `list r1 x1 - r2` lists two parts,
and says nothing. -/
theorem dash_later : list false demo ['r', '1', ' ', 'x', '1', ' ', '-', ' ', 'r', '2'] = .done [[0], [1]] := by decide +kernel

/-- **C98, false**: a dash without a blank in front belongs to the name: `list r1-r2` fails, though both are there. -/
theorem dash_in_name : list false demo ['r', '1', '-', 'r', '2'] = .cant ∧
    list false demo ['r', '1', ' ', '-', 'r', '2'] = .done [[0], [1], [2], [3]] := by decide +kernel

/-- **C98, false**: a range that ends inside an instance compares positions in two different lists: `list r1 - r1.x2`. -/
theorem range_mixed : list false demo ['r', '1', ' ', '-', ' ', 'r', '1', '.', 'x', '2'] = .mixed := by decide +kernel

/-- **C98, false**: of the parts inside instances only those in the first instance are listed: both have an `r1`. -/
theorem inside_first_only : list false demo ['r', '1', '.', 'x', '*'] = .done [[1, 0]] ∧
    list false demo ['r', '1', '.', 'x', '2'] = .done [[2, 0]] := by decide +kernel

/-- the first match at or behind a position, of a list at any depth -/
theorem find_inside (ci : Bool) (root : List Part) {s : List Char} {a t : List Char} (hs : label s = (a, t)) (h1 : a ≠ []) (h2 : '.' ∉ a)
    (path : List ℕ) (start : ℕ) :
    match find ci root s path start with
    | some (r, t') => t' = t ∧ ∃ i, r = path ++ [i] ∧ First ci (partsAt root path) a start i
    | none => ∀ j ∈ fitting ci (partsAt root path) a, j < start := by
  have H := findBranch_spec ci a.length a (partsAt root path) start path h1
    (by intro h; exact h2 (List.mem_of_mem_head? h)) (le_refl _)
  rw [words_plain h2] at H
  simp only [List.reverse_singleton] at H
  rw [find, hs]
  cases hf : findBranch ci a.length a (partsAt root path) start path with
  | none =>
    rw [hf] at H
    simp only [Option.map_none]
    intro j hj
    obtain ⟨p, hp, hm⟩ := mem_fitting.mp hj
    by_contra hc
    exact H j [] (by omega) ⟨p, hp, hm⟩
  | some r =>
    rw [hf] at H
    obtain ⟨i, is, rfl, hi, hL, hmin⟩ := H
    cases is with
    | cons k ks => exact absurd hL (by simp [Leads])
    | nil =>
      obtain ⟨p, hp, hm⟩ := hL
      simp only [Option.map_some]
      refine ⟨trivial, i, rfl, mem_fitting.mpr ⟨p, hp, hm⟩, hi, ?_⟩
      intro j hj hsj
      obtain ⟨q, hq, hm'⟩ := mem_fitting.mp hj
      have := hmin j [] hsj ⟨q, hq, hm'⟩
      simp only [Leq] at this
      omega

/-- **C98, a range inside**: where the first name leads into an instance, to position `i` of the list there, the second is
searched in that list, behind `i`: `list x.u - y` lists the parts of `u` from `x` to `y`, or fails if there is no such part, and
`list x.u -` lists to the end of `u`. -/
theorem range_inside (ci : Bool) (root : List Part) (b s t : List Char) (path : List ℕ) (i : ℕ) (hb : Blanks b) (hs : Next s)
    (hd : NoDash s) (h0 : s ≠ []) (hx : find ci root s [] 0 = some (path ++ [i], '-' :: t)) :
    (∀ (b2 : List Char) (y : Name) (g r : List Char), Blanks b2 → Plain y → Gap g → (r = [] ∨ g ≠ []) → Next r →
      t = b2 ++ (y ++ g ++ r) →
      (∀ j, First ci (partsAt root path) y (i + 1) j →
        list ci root (b ++ s) = .done ((List.range' i (j + 1 - i)).map fun k => path ++ [k])) ∧
      ((∀ j ∈ fitting ci (partsAt root path) y, j ≤ i) → list ci root (b ++ s) = .cant)) ∧
    (Blanks t → i < (partsAt root path).length →
      list ci root (b ++ s) = .done ((List.range' i ((partsAt root path).length - i)).map fun k => path ++ [k])) := by
  have L : list ci root (b ++ s) = behind ci root s (path ++ [i]) ('-' :: t) := by
    have e : skipbl (b ++ s) = s := by rw [skipbl_blanks hb, hs.skipbl]
    rw [list, e, if_neg h0, if_neg (by rw [hd.match1]; simp), hx]
  have hl : (path ++ [i]).dropLast = path := by simp
  have hg : (path ++ [i]).getLast?.getD 0 = i := by simp
  refine ⟨?_, ?_⟩
  · rintro b2 y g r hb2 hy hgp hr hn rfl
    have hY : Next (y ++ g ++ r) := by
      intro c hc
      cases y with
      | nil => exact absurd rfl hy.ne
      | cons d y =>
        obtain rfl : d = c := by simpa using hc
        obtain ⟨i1, i2, _⟩ := hy.2 d (by simp)
        exact ⟨i1, by rintro rfl; exact i2 (by simp)⟩
    have hs2 : skipbl (b2 ++ (y ++ g ++ r)) = y ++ g ++ r := by rw [skipbl_blanks hb2, hY.skipbl]
    have hne : y ++ g ++ r ≠ [] := by intro h; exact hy.ne (by simp at h; exact h.1)
    have F := find_inside ci root (label_read hy hgp hr hn) hy.ne hy.nodot path (i + 1)
    rw [L, behind, if_pos (by simp [Spice.match1])]
    simp only [List.tail_cons, hs2, if_neg hne, hl, hg]
    cases hf : find ci root (y ++ g ++ r) path (i + 1) with
    | none =>
      rw [hf] at F
      exact ⟨fun j hj => absurd (F j hj.1) (by have := hj.2.1; omega), fun _ => rfl⟩
    | some q =>
      obtain ⟨q, t'⟩ := q
      rw [hf] at F
      obtain ⟨_, k, rfl, k1, k2, k3⟩ := F
      refine ⟨?_, fun h => absurd (h k k1) (by omega)⟩
      rintro j ⟨j1, j2, j3⟩
      obtain rfl : k = j := le_antisymm (k3 j j1 j2) (j3 k k1 k2)
      simp [between]
  · intro ht hi
    rw [L, behind, if_pos (by simp [Spice.match1])]
    simp only [List.tail_cons, skipbl_blank_end ht, if_true, hl, hg, between]
    rw [show (partsAt root path).length - 1 + 1 - i = (partsAt root path).length - i by omega]

/-- `list r1.x1 - c1` -/
example : list false demo ([] ++ ['r', '1', '.', 'x', '1', ' ', '-', ' ', 'c', '1']) = .done [[1, 0], [1, 1]] := by
  have f : fitting false (partsAt demo [1]) ['c', '1'] = [1] := by decide +kernel
  rw [((range_inside false demo [] ['r', '1', '.', 'x', '1', ' ', '-', ' ', 'c', '1'] [' ', 'c', '1'] [1] 0 blank0
    (by intro c hc; obtain rfl : 'r' = c := by simpa using hc
        decide) (by simp [NoDash]) (by simp) (by decide +kernel)).1 [' '] ['c', '1'] [] [] blank1 (plain_of (by decide)) (.inl blank0)
      (.inl rfl) (by intro c hc; simp at hc) rfl).1 1 ⟨by simp [f], le_refl _, by simp [f]⟩]
  rfl

end Gnucap.ListCmd
