import Verif.NameModel
import Verif.WmatchProps
import Mathlib.Data.List.Basic
import Mathlib.Data.List.Induction

/-! # Names of parts and what they find (C66) -/
set_option linter.unusedSimpArgs false
namespace Gnucap.Names
open Gnucap.Wmatch

/-! ## Specification -/

/-- the pieces of a name between the dots -/
def words : Name → List Name
  | [] => [[]]
  | c :: s =>
    match words s with
    | [] => [[c]]
    | w :: ws => if c = '.' then [] :: w :: ws else (c :: w) :: ws

/-- `Readings ws us`: `us` are the words `ws` put in order from the outside in, taking each time the first or the last of
those left. -/
inductive Readings {α : Type _} : List α → List α → Prop
  | one (w : α) : Readings [w] [w]
  | front (w : α) {ws us : List α} (h : Readings ws us) : Readings (w :: ws) (w :: us)
  | back (w : α) {ws us : List α} (h : Readings ws us) : Readings (ws ++ [w]) (w :: us)

/-- What a single word names in a list of parts: with a wildcard every node but ground and every part that matches, without
one the node and the first part of that name. -/
def Here (ci : Bool) (w : Name) (nodes : List Name) (parts : List Part) (path : List ℕ) (o : Obj) : Prop :=
  if ∃ c ∈ w, c = '*' ∨ c = '?' then
    (∃ n ∈ nodes, n ≠ ['0'] ∧ wmatch ci n w = true ∧ o = .node path n) ∨
    (∃ i p, parts[i]? = some p ∧ wmatch ci p.label w = true ∧ o = .part (path ++ [i]))
  else
    (∃ n, nodeFind ci nodes w = some n ∧ o = .node path n) ∨
    (∃ i p, parts[i]? = some p ∧ same ci p.label w = true ∧ (∀ j p', j < i → parts[j]? = some p' → same ci p'.label w = false) ∧
      o = .part (path ++ [i]))

/-- What a list of words names, the first being the outermost: each but the last a device with parts inside. -/
def Found (ci : Bool) : List Name → List Name → List Part → List ℕ → Obj → Prop
  | [], _, _, _, _ => False
  | [w], nodes, parts, path, o => Here ci w nodes parts path o
  | c :: w :: us, _, parts, path, o =>
    ∃ i p, parts[i]? = some p ∧ p.dev = true ∧ p.hasSub = true ∧ wmatch ci p.label c = true ∧
      Found ci (w :: us) p.nodes p.parts (path ++ [i]) o

/-! ## Words -/

theorem words_ne (s : Name) : words s ≠ [] := by
  cases s with
  | nil => simp [words]
  | cons c s =>
    rw [words]
    cases words s with
    | nil => simp
    | cons w ws => by_cases h : c = '.' <;> simp [h]

theorem cut_words (s : Name) :
    match cut s with
    | some r => words s = r.1 :: words r.2
    | none => words s = [s] := by
  induction s with
  | nil => rfl
  | cons c s ih =>
    rw [cut]
    by_cases hc : c = '.'
    · rw [if_pos hc]
      simp only [words]
      cases hw : words s with
      | nil => exact absurd hw (words_ne s)
      | cons w ws => simp [hc]
    · rw [if_neg hc]
      cases hs : cut s with
      | none =>
        rw [hs] at ih
        simp only [Option.map_none]
        simp only at ih
        simp only [words, ih, if_neg hc]
      | some r =>
        rw [hs] at ih
        simp only [Option.map_some]
        simp only at ih
        simp only [words, ih, if_neg hc]

theorem words_dot (a b : Name) : words (a ++ '.' :: b) = words a ++ words b := by
  induction a with
  | nil =>
    simp only [List.nil_append, words]
    cases hw : words b with
    | nil => exact absurd hw (words_ne b)
    | cons w ws => simp
  | cons c a ih =>
    simp only [List.cons_append, words]
    rw [ih]
    cases hw : words a with
    | nil => exact absurd hw (words_ne a)
    | cons w ws => by_cases hc : c = '.' <;> simp [hc]

theorem words_plain {a : Name} (h : '.' ∉ a) : words a = [a] := by
  induction a with
  | nil => rfl
  | cons c a ih =>
    simp only [List.mem_cons, not_or] at h
    simp only [words, ih h.2, if_neg (Ne.symm h.1)]

theorem cut_spec {s : Name} {r : Name × Name} (h : cut s = some r) : s = r.1 ++ '.' :: r.2 ∧ '.' ∉ r.1 := by
  induction s generalizing r with
  | nil => simp [cut] at h
  | cons c s ih =>
    rw [cut] at h
    by_cases hc : c = '.'
    · rw [if_pos hc] at h
      obtain rfl := Option.some.inj h
      simp [hc]
    · rw [if_neg hc] at h
      cases hs : cut s with
      | none => rw [hs] at h; simp at h
      | some q =>
        rw [hs] at h
        obtain rfl := Option.some.inj h
        obtain ⟨h1, h2⟩ := ih hs
        constructor
        · simp only [List.cons_append]; rw [← h1]
        · simp only [List.mem_cons, not_or]; exact ⟨Ne.symm hc, h2⟩

theorem cut_none {s : Name} : cut s = none ↔ '.' ∉ s := by
  induction s with
  | nil => simp [cut]
  | cons c s ih =>
    rw [cut]
    by_cases hc : c = '.'
    · simp [hc]
    · rw [if_neg hc]; simp [ih, Ne.symm hc]

theorem cutLast_none {s : Name} : cutLast s = none ↔ '.' ∉ s := by
  unfold cutLast
  rw [Option.map_eq_none_iff, cut_none]; simp

theorem cutLast_words {s : Name} {r : Name × Name} (h : cutLast s = some r) : words s = words r.1 ++ [r.2] := by
  unfold cutLast at h
  cases hs : cut s.reverse with
  | none => rw [hs] at h; simp at h
  | some q =>
    rw [hs] at h
    obtain rfl := Option.some.inj h
    obtain ⟨h1, h2⟩ := cut_spec hs
    have : s = q.2.reverse ++ '.' :: q.1.reverse := by
      have := congrArg List.reverse h1
      simpa using this
    rw [this, words_dot, words_plain (a := q.1.reverse) (by simpa using h2)]

theorem cut_cutLast (s : Name) : (∃ r q, cut s = some r ∧ cutLast s = some q) ∨ (cut s = none ∧ cutLast s = none) := by
  by_cases h : '.' ∈ s
  · left
    cases h1 : cut s with
    | none => exact absurd h (cut_none.mp h1)
    | some r =>
      cases h2 : cutLast s with
      | none => exact absurd h (cutLast_none.mp h2)
      | some q => exact ⟨r, q, rfl, rfl⟩
  · exact .inr ⟨cut_none.mpr h, cutLast_none.mpr h⟩

/-! ## Readings -/

theorem readings_ne {α : Type _} {ws us : List α} (h : Readings ws us) : ws ≠ [] ∧ us ≠ [] := by
  cases h <;> simp

theorem readings_length {α : Type _} {ws us : List α} (h : Readings ws us) : us.length = ws.length := by
  induction h with
  | one => rfl
  | front w _ ih => simp [ih]
  | back w _ ih => simp [ih]

theorem readings_one {α : Type _} {w : α} {us : List α} : Readings [w] us ↔ us = [w] := by
  constructor
  · intro h
    generalize hv : [w] = v at h
    cases h with
    | one w' => rfl
    | front w' h =>
      have := (readings_ne h).1
      simp only [List.cons.injEq] at hv
      exact absurd hv.2.symm this
    | back w' h =>
      have := (readings_ne h).1
      rename_i ws us
      cases ws with
      | nil => exact absurd rfl this
      | cons a l => simp at hv
  · rintro rfl; exact .one w

/-- With several words the outermost is the first or the last. -/
theorem readings_more {α : Type _} {ws : List α} (hw : 2 ≤ ws.length) {us : List α} : Readings ws us ↔
    (∃ w ws' us', ws = w :: ws' ∧ us = w :: us' ∧ Readings ws' us') ∨
    (∃ w ws' us', ws = ws' ++ [w] ∧ us = w :: us' ∧ Readings ws' us') := by
  constructor
  · intro h
    cases h with
    | one w => simp at hw
    | front w h => exact .inl ⟨w, _, _, rfl, rfl, h⟩
    | back w h => exact .inr ⟨w, _, _, rfl, rfl, h⟩
  · rintro (⟨w, ws', us', rfl, rfl, h⟩ | ⟨w, ws', us', rfl, rfl, h⟩)
    · exact .front w h
    · exact .back w h

/-- in Verilog order -/
theorem readings_self {α : Type _} {ws : List α} (h : ws ≠ []) : Readings ws ws := by
  induction ws with
  | nil => exact absurd rfl h
  | cons w ws ih =>
    cases ws with
    | nil => exact .one w
    | cons v vs => exact .front w (ih (by simp))

/-- in the reverse order -/
theorem readings_reverse {α : Type _} {ws : List α} (h : ws ≠ []) : Readings ws ws.reverse := by
  induction ws using List.reverseRecOn with
  | nil => exact absurd rfl h
  | append_singleton ws w ih =>
    rw [List.reverse_append]
    simp only [List.reverse_cons, List.reverse_nil, List.nil_append, List.singleton_append]
    cases ws with
    | nil => exact .one w
    | cons v vs => exact .back w (ih (by simp))

/-- With two words these are all. -/
theorem readings_two {α : Type _} {a b : α} {us : List α} : Readings [a, b] us ↔ us = [a, b] ∨ us = [b, a] := by
  rw [readings_more (by simp)]
  constructor
  · rintro (⟨w, ws', us', h1, rfl, h⟩ | ⟨w, ws', us', h1, rfl, h⟩)
    · simp only [List.cons.injEq] at h1
      obtain ⟨rfl, rfl⟩ := h1
      rw [readings_one] at h
      left; rw [h]
    · have h2 : [a] ++ [b] = ws' ++ [w] := h1
      obtain ⟨rfl, h3⟩ := List.append_inj' h2 rfl
      simp only [List.cons.injEq, and_true] at h3
      subst h3
      rw [readings_one] at h
      right; rw [h]
  · rintro (rfl | rfl)
    · exact .inl ⟨a, [b], [b], rfl, rfl, .one b⟩
    · exact .inr ⟨b, [a], [a], rfl, rfl, .one a⟩

/-! ## The search of the probe commands -/

theorem wild_iff (s : Name) : wild s = true ↔ ∃ c ∈ s, c = '*' ∨ c = '?' := by
  unfold wild
  rw [List.any_eq_true]
  simp

theorem addHere_spec (ci : Bool) (s : Name) (nodes : List Name) (parts : List Part) (path : List ℕ) (o : Obj) :
    o ∈ addHere ci s nodes parts path ↔ Here ci s nodes parts path o := by
  unfold addHere Here
  by_cases hw : wild s = true
  · rw [if_pos hw, if_pos ((wild_iff s).mp hw)]
    simp only [List.mem_append, List.mem_map, List.mem_filter, Bool.and_eq_true, decide_eq_true_eq]
    constructor
    · rintro (⟨n, ⟨hn, h1, h2⟩, rfl⟩ | ⟨⟨p, i⟩, ⟨hp, hm⟩, rfl⟩)
      · exact .inl ⟨n, hn, h1, h2, rfl⟩
      · rw [List.mem_zipIdx_iff_getElem?] at hp
        exact .inr ⟨i, p, hp, hm, rfl⟩
    · rintro (⟨n, hn, h1, h2, rfl⟩ | ⟨i, p, hp, hm, rfl⟩)
      · exact .inl ⟨n, ⟨hn, h1, h2⟩, rfl⟩
      · exact .inr ⟨(p, i), ⟨by rw [List.mem_zipIdx_iff_getElem?]; exact hp, hm⟩, rfl⟩
  · rw [if_neg hw, if_neg (fun h => hw ((wild_iff s).mpr h))]
    rw [List.mem_append]
    refine or_congr ?_ ?_
    · cases nodeFind ci nodes s with
      | none => simp
      | some n => simp
    · cases hf : parts.findIdx? (fun p => same ci p.label s) with
      | none =>
        simp only [List.not_mem_nil, false_iff, not_exists, not_and]
        rw [List.findIdx?_eq_none_iff] at hf
        intro i p hp hs
        have := hf p (List.mem_of_getElem? hp)
        rw [hs] at this
        cases this
      | some i =>
        rw [List.findIdx?_eq_some_iff_getElem] at hf
        obtain ⟨hi, h1, h2⟩ := hf
        simp only [List.mem_singleton]
        constructor
        · rintro rfl
          refine ⟨i, parts[i], List.getElem?_eq_getElem hi, h1, ?_, rfl⟩
          intro j p' hj hp'
          have hjl : j < parts.length := by omega
          rw [List.getElem?_eq_getElem hjl] at hp'
          obtain rfl := Option.some.inj hp'
          have := h2 j hj
          simpa using this
        · rintro ⟨k, p, hk, hs, hmin, rfl⟩
          have hkl : k < parts.length := by
            by_contra hc
            rw [List.getElem?_eq_none (by omega)] at hk
            cases hk
          rw [List.getElem?_eq_getElem hkl] at hk
          obtain rfl := Option.some.inj hk
          rcases Nat.lt_trichotomy i k with h | h | h
          · have := hmin i parts[i] h (List.getElem?_eq_getElem hi)
            rw [h1] at this; cases this
          · rw [h]
          · have := h2 k h
            rw [hs] at this
            simp at this

/-- **C66**: the probe commands find exactly the nodes and parts that a reading of the name leads to. -/
theorem addBranches_spec (ci : Bool) (s : Name) (nodes : List Name) (parts : List Part) (path : List ℕ) (o : Obj) :
    o ∈ addBranches ci s nodes parts path ↔ ∃ us, Readings (words s) us ∧ Found ci us nodes parts path o := by
  induction hn : s.length using Nat.strong_induction_on generalizing s nodes parts path with
  | _ n ih =>
    rcases cut_cutLast s with ⟨r, q, hr, hq⟩ | ⟨hr, hq⟩
    · have e : addBranches ci s nodes parts path =
        (parts.zipIdx.flatMap fun p =>
          if p.1.dev && p.1.hasSub && wmatch ci p.1.label r.1 then addBranches ci r.2 p.1.nodes p.1.parts (path ++ [p.2]) else []) ++
        (parts.zipIdx.flatMap fun p =>
          if p.1.dev && p.1.hasSub && wmatch ci p.1.label q.2 then addBranches ci q.1 p.1.nodes p.1.parts (path ++ [p.2]) else []) := by
        rw [addBranches]
        split
        · rename_i r' q' h1 h2
          rw [hr] at h1; rw [hq] at h2
          obtain rfl := Option.some.inj h1
          obtain rfl := Option.some.inj h2
          rfl
        · rename_i h1
          exact absurd hq (h1 r q hr)
      have side : ∀ (c t : Name), t.length < s.length → (o ∈ (parts.zipIdx.flatMap fun p =>
          if p.1.dev && p.1.hasSub && wmatch ci p.1.label c then addBranches ci t p.1.nodes p.1.parts (path ++ [p.2]) else []) ↔
          ∃ us, Readings (words t) us ∧ Found ci (c :: us) nodes parts path o) := by
        intro c t ht
        rw [List.mem_flatMap]
        constructor
        · rintro ⟨⟨p, i⟩, hp, ho⟩
          rw [List.mem_zipIdx_iff_getElem?] at hp
          simp only at hp ho
          by_cases hc : (p.dev && p.hasSub && wmatch ci p.label c) = true
          · rw [if_pos hc] at ho
            simp only [Bool.and_eq_true] at hc
            rw [ih t.length (by omega) t p.nodes p.parts (path ++ [i]) rfl] at ho
            obtain ⟨us, hus, hf⟩ := ho
            refine ⟨us, hus, ?_⟩
            cases us with
            | nil => exact absurd rfl (readings_ne hus).2
            | cons w us => exact ⟨i, p, hp, hc.1.1, hc.1.2, hc.2, hf⟩
          · rw [if_neg hc] at ho; cases ho
        · rintro ⟨us, hus, hf⟩
          cases us with
          | nil => exact absurd rfl (readings_ne hus).2
          | cons w us =>
            obtain ⟨i, p, hp, h1, h2, h3, hf⟩ := hf
            refine ⟨(p, i), by rw [List.mem_zipIdx_iff_getElem?]; exact hp, ?_⟩
            rw [if_pos (by simp [h1, h2, h3])]
            rw [ih t.length (by omega) t p.nodes p.parts (path ++ [i]) rfl]
            exact ⟨_, hus, hf⟩
      rw [e, List.mem_append, side r.1 r.2 (cut_length hr).2, side q.2 q.1 (cutLast_length hq).1]
      have w1 : words s = r.1 :: words r.2 := by have := cut_words s; rw [hr] at this; exact this
      have w2 := cutLast_words hq
      have hlen : 2 ≤ (words s).length := by
        rw [w1]
        have := words_ne r.2
        cases hw : words r.2 with
        | nil => exact absurd hw this
        | cons a l => simp
      constructor
      · rintro (⟨us, hus, hf⟩ | ⟨us, hus, hf⟩)
        · exact ⟨_, by rw [w1]; exact .front r.1 hus, hf⟩
        · exact ⟨_, by rw [w2]; exact .back q.2 hus, hf⟩
      · rintro ⟨us, hus, hf⟩
        rw [readings_more hlen] at hus
        rcases hus with ⟨w, ws', us', h1, rfl, h⟩ | ⟨w, ws', us', h1, rfl, h⟩
        · rw [w1] at h1
          obtain ⟨rfl, rfl⟩ := List.cons.inj h1
          exact .inl ⟨us', h, hf⟩
        · rw [w2] at h1
          obtain ⟨rfl, h3⟩ := List.append_inj' h1 rfl
          obtain rfl := (List.cons.inj h3).1
          exact .inr ⟨us', h, hf⟩
    · have e : addBranches ci s nodes parts path = addHere ci s nodes parts path := by
        rw [addBranches]
        split
        · rename_i r' q' h1 h2
          rw [hr] at h1; cases h1
        · rfl
      have w1 : words s = [s] := by have := cut_words s; rw [hr] at this; exact this
      rw [e, addHere_spec, w1]
      constructor
      · intro h; exact ⟨_, .one s, h⟩
      · rintro ⟨us, hus, hf⟩
        rw [readings_one] at hus
        subst hus
        exact hf

/-! ## Printed names -/

theorem wmatch_self (ci : Bool) (l : Name) : wmatch ci l l = true := by
  induction l with
  | nil => rw [wmatch]
  | cons c l ih => rw [wmatch, if_pos rfl]; exact ih

/-- The place of a part that its printed name can be expected to find: labels without dots, devices with parts inside on the
way, no wildcard in the part's own label, and no other part of the same list with that label before it. -/
def Nameable (ci : Bool) : List Part → List ℕ → Prop
  | _, [] => False
  | ps, [i] => ∃ p, ps[i]? = some p ∧ '.' ∉ p.label ∧ (∀ c ∈ p.label, c ≠ '*' ∧ c ≠ '?') ∧
      ∀ j p', j < i → ps[j]? = some p' → same ci p'.label p.label = false
  | ps, i :: j :: path => ∃ p, ps[i]? = some p ∧ '.' ∉ p.label ∧ p.dev = true ∧ p.hasSub = true ∧ Nameable ci p.parts (j :: path)

theorem nameable_found (ci : Bool) : ∀ (ps : List Part) (place : List ℕ) (nodes : List Name) (path : List ℕ), Nameable ci ps place →
    ∃ s, longLabel ps place = some s ∧ Found ci (words s) nodes ps path (.part (path ++ place)) := by
  intro ps place
  induction place generalizing ps with
  | nil => intro nodes path h; cases h
  | cons i place ih =>
    intro nodes path h
    cases place with
    | nil =>
      obtain ⟨p, hp, hd, hw, hf⟩ := h
      refine ⟨p.label, by rw [longLabel, hp]; rfl, ?_⟩
      rw [words_plain hd]
      unfold Found Here
      rw [if_neg (by rintro ⟨c, hc, h | h⟩; exacts [(hw c hc).1 h, (hw c hc).2 h])]
      exact .inr ⟨i, p, hp, by simp [same], hf, rfl⟩
    | cons j place =>
      obtain ⟨p, hp, hd, h1, h2, h3⟩ := h
      obtain ⟨s, hs, hf⟩ := ih p.parts p.nodes (path ++ [i]) h3
      refine ⟨p.label ++ '.' :: s, by rw [longLabel, hp]; simp only; rw [hs]; rfl, ?_⟩
      rw [words_dot, words_plain hd]
      have hne := words_ne s
      cases hw : words s with
      | nil => exact absurd hw hne
      | cons w ws =>
        rw [hw] at hf
        refine ⟨i, p, hp, h1, h2, wmatch_self ci _, ?_⟩
        rw [List.append_assoc] at hf
        exact hf

/-- **C66**: a printed name, given to a probe command, finds the part it was printed for. -/
theorem printed_name_probed (ci : Bool) (root : List Part) (nodes : List Name) (place : List ℕ) (h : Nameable ci root place) :
    ∃ s, longLabel root place = some s ∧ .part place ∈ addBranches ci s nodes root [] := by
  obtain ⟨s, hs, hf⟩ := nameable_found ci root place nodes [] h
  refine ⟨s, hs, ?_⟩
  rw [addBranches_spec]
  exact ⟨_, readings_self (words_ne s), hf⟩

/-- **C66**: a name with one dot finds what it means in one of the two documented orders, and nothing else. -/
theorem one_dot (ci : Bool) (a b : Name) (ha : '.' ∉ a) (hb : '.' ∉ b) (nodes : List Name) (root : List Part) (o : Obj) :
    o ∈ addBranches ci (a ++ '.' :: b) nodes root [] ↔ Found ci [a, b] nodes root [] o ∨ Found ci [b, a] nodes root [] o := by
  rw [addBranches_spec, words_dot, words_plain ha, words_plain hb]
  constructor
  · rintro ⟨us, h, hf⟩
    rcases readings_two.mp h with rfl | rfl
    · exact .inl hf
    · exact .inr hf
  · rintro (h | h)
    · exact ⟨_, readings_two.mpr (.inl rfl), h⟩
    · exact ⟨_, readings_two.mpr (.inr rfl), h⟩

/-! ## The search of list, modify, fault and dc -/

/-- a place that words, the outermost first, lead to -/
def Leads (ci : Bool) : List Name → List Part → List ℕ → Prop
  | [w], ps, [i] => ∃ p, ps[i]? = some p ∧ wmatch ci p.label w = true
  | c :: w :: us, ps, i :: is => ∃ p, ps[i]? = some p ∧ wmatch ci p.label c = true ∧ p.hasSub = true ∧ Leads ci (w :: us) p.parts is
  | _, _, _ => False

/-- not after, comparing position by position -/
def Leq : List ℕ → List ℕ → Prop
  | [], _ => True
  | _ :: _, [] => False
  | i :: is, j :: js => i < j ∨ (i = j ∧ Leq is js)

theorem leads_cons {ci : Bool} {us : List Name} {ps : List Part} {is : List ℕ} (h : Leads ci us ps is) :
    ∃ i is', is = i :: is' ∧ i < ps.length := by
  cases is with
  | nil => cases us with
    | nil => exact absurd h (by simp [Leads])
    | cons w us => cases us <;> exact absurd h (by simp [Leads])
  | cons i is =>
    refine ⟨i, is, rfl, ?_⟩
    cases us with
    | nil => exact absurd h (by simp [Leads])
    | cons w us =>
      have : ∃ p, ps[i]? = some p := by
        cases us with
        | nil => cases is with
          | nil => obtain ⟨p, hp, _⟩ := h; exact ⟨p, hp⟩
          | cons j js => exact absurd h (by simp [Leads])
        | cons v vs => obtain ⟨p, hp, _⟩ := h; exact ⟨p, hp⟩
      obtain ⟨p, hp⟩ := this
      by_contra hc
      rw [List.getElem?_eq_none (by omega)] at hp
      cases hp

theorem findSome_drop {α β : Type _} (l : List α) (f : α → ℕ → Option β) (start : ℕ) :
    match (l.zipIdx.drop start).findSome? (fun p => f p.1 p.2) with
    | some b => ∃ i x, start ≤ i ∧ l[i]? = some x ∧ f x i = some b ∧ ∀ j y, start ≤ j → j < i → l[j]? = some y → f y j = none
    | none => ∀ j y, start ≤ j → l[j]? = some y → f y j = none := by
  cases h : (l.zipIdx.drop start).findSome? (fun p => f p.1 p.2) with
  | none =>
    simp only
    rw [List.findSome?_eq_none_iff] at h
    intro j y hj hy
    refine h (y, j) ?_
    rw [List.mem_iff_getElem?]
    refine ⟨j - start, ?_⟩
    rw [List.getElem?_drop, List.getElem?_zipIdx, show start + (j - start) = j by omega, hy]
    simp
  | some b =>
    simp only
    rw [List.findSome?_eq_some_iff] at h
    obtain ⟨l1, a, l2, he, hb, hn⟩ := h
    have hidx : ∀ k, (l.zipIdx.drop start)[k]? = (l[start + k]?).map fun x => (x, start + k) := by
      intro k
      rw [List.getElem?_drop, List.getElem?_zipIdx]
      simp
    have ha : (l.zipIdx.drop start)[l1.length]? = some a := by
      rw [he]; simp
    rw [hidx] at ha
    cases hx : l[start + l1.length]? with
    | none => rw [hx] at ha; cases ha
    | some x =>
      rw [hx] at ha
      simp only [Option.map_some, Option.some.injEq] at ha
      subst ha
      refine ⟨start + l1.length, x, by omega, hx, hb, ?_⟩
      intro j y hj hji hy
      have hm : (y, j) ∈ l1 := by
        have h3 := hidx (j - start)
        rw [he, List.getElem?_append_left (by omega), show start + (j - start) = j by omega, hy] at h3
        exact List.mem_of_getElem? h3
      exact hn (y, j) hm

/-- **C66**: this search takes the words in the reverse order only, and finds the first place they lead to. -/
theorem findBranch_spec (ci : Bool) : ∀ (gas : ℕ) (s : Name) (parts : List Part) (start : ℕ) (path : List ℕ),
    s ≠ [] → s.head? ≠ some '.' → s.length ≤ gas →
    match findBranch ci gas s parts start path with
    | some r => ∃ i is, r = path ++ i :: is ∧ start ≤ i ∧ Leads ci (words s).reverse parts (i :: is) ∧
        ∀ j js, start ≤ j → Leads ci (words s).reverse parts (j :: js) → Leq (i :: is) (j :: js)
    | none => ∀ j js, start ≤ j → ¬ Leads ci (words s).reverse parts (j :: js) := by
  intro gas
  induction gas with
  | zero => intro s parts start path h1 h2 h3; cases s with
    | nil => exact absurd rfl h1
    | cons c s => simp at h3
  | succ gas ih =>
    intro s parts start path h1 h2 h3
    rw [findBranch, if_neg h1]
    cases hl : cutLast s with
    | none =>
      have hd := cutLast_none.mp hl
      rw [words_plain hd]
      simp only [Option.map_none, List.reverse_singleton]
      have F := findSome_drop parts (fun p i => if wmatch ci p.label s = true then some (path ++ [i]) else none) start
      split <;> rename_i heq
      · simp only [heq] at F
        obtain ⟨i, x, hi, hx, hf, hmin⟩ := F
        by_cases hm : wmatch ci x.label s = true
        · rw [if_pos hm] at hf
          refine ⟨i, [], (Option.some.inj hf).symm, hi, ⟨x, hx, hm⟩, ?_⟩
          intro j js hj hL
          cases js with
          | cons k ks => exact absurd hL (by simp [Leads])
          | nil =>
            obtain ⟨p, hp, hpm⟩ := hL
            rcases Nat.lt_or_ge j i with h | h
            · have := hmin j p hj h hp
              rw [if_pos hpm] at this
              cases this
            · rcases Nat.lt_or_ge i j with h' | h'
              · exact .inl h'
              · exact .inr ⟨by omega, trivial⟩
        · rw [if_neg hm] at hf; cases hf
      · simp only [heq] at F
        intro j js hj hL
        cases js with
        | cons k ks => exact absurd hL (by simp [Leads])
        | nil =>
          obtain ⟨p, hp, hpm⟩ := hL
          have := F j p hj hp
          rw [if_pos hpm] at this
          cases this
    | some q =>
      have hw := cutLast_words hl
      have hlen := cutLast_length hl
      have hq1 : q.1 ≠ [] ∧ q.1.head? ≠ some '.' := by
        unfold cutLast at hl
        cases hs : cut s.reverse with
        | none => rw [hs] at hl; simp at hl
        | some c =>
          rw [hs] at hl
          obtain rfl := Option.some.inj hl
          obtain ⟨e1, e2⟩ := cut_spec hs
          have es : s = c.2.reverse ++ '.' :: c.1.reverse := by
            have := congrArg List.reverse e1
            simpa using this
          simp only
          cases hc : c.2.reverse with
          | nil => rw [es, hc] at h2; simp at h2
          | cons a l =>
            rw [es, hc] at h2
            simp only [List.cons_append, List.head?_cons] at h2 ⊢
            exact ⟨by simp, h2⟩
      rw [hw, List.reverse_append]
      simp only [Option.map_some, List.reverse_cons, List.reverse_nil, List.nil_append, List.singleton_append]
      have IH := fun (p : Part) (i : ℕ) => ih q.1 p.parts 0 (path ++ [i]) hq1.1 hq1.2 (by omega)
      obtain ⟨v, vs, hv⟩ : ∃ v vs, (words q.1).reverse = v :: vs := by
        cases hr : (words q.1).reverse with
        | nil => exact absurd (List.reverse_eq_nil_iff.mp hr) (words_ne q.1)
        | cons v vs => exact ⟨v, vs, rfl⟩
      rw [hv] at IH ⊢
      have F := findSome_drop parts (fun p i => if wmatch ci p.label q.2 = true then
        if p.hasSub = true then findBranch ci gas q.1 p.parts 0 (path ++ [i]) else none else none) start
      split <;> rename_i heq
      · simp only [heq] at F
        obtain ⟨i, x, hi, hx, hf, hmin⟩ := F
        by_cases hm : wmatch ci x.label q.2 = true
        · rw [if_pos hm] at hf
          by_cases hs : x.hasSub = true
          · rw [if_pos hs] at hf
            have I := IH x i
            rw [hf] at I
            obtain ⟨k, ks, hr, _, hL, hlq⟩ := I
            refine ⟨i, k :: ks, by rw [hr, List.append_assoc]; rfl, hi, ⟨x, hx, hm, hs, hL⟩, ?_⟩
            intro j js hj hLj
            obtain ⟨p, hp, hpm, hps, hpl⟩ := hLj
            rcases Nat.lt_trichotomy i j with h | h | h
            · exact .inl h
            · subst h
              rw [hx] at hp
              obtain rfl := Option.some.inj hp
              obtain ⟨k', ks', rfl, _⟩ := leads_cons hpl
              exact .inr ⟨rfl, hlq k' ks' (Nat.zero_le _) hpl⟩
            · have := hmin j p hj h hp
              rw [if_pos hpm, if_pos hps] at this
              have I2 := IH p j
              rw [this] at I2
              obtain ⟨k', ks', rfl, _⟩ := leads_cons hpl
              exact absurd hpl (I2 k' ks' (Nat.zero_le _))
          · rw [if_neg hs] at hf; cases hf
        · rw [if_neg hm] at hf; cases hf
      · simp only [heq] at F
        intro j js hj hLj
        obtain ⟨p, hp, hpm, hps, hpl⟩ := hLj
        have := F j p hj hp
        rw [if_pos hpm, if_pos hps] at this
        have I2 := IH p j
        rw [this] at I2
        obtain ⟨k', ks', rfl, _⟩ := leads_cons hpl
        exact absurd hpl (I2 k' ks' (Nat.zero_le _))

end Gnucap.Names
