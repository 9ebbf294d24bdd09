import Verif.WmatchModel
import Mathlib.Data.List.Basic

/-!
# Wildcard matching (C44)
-/
namespace Gnucap.Wmatch

/-- the documented pattern language: `?` any one character, `*` any string, anything else itself (up to case if so set) -/
inductive Matches (ci : Bool) : List Char → List Char → Prop
  | nil : Matches ci [] []
  | lit (c p s q) (h : fixCase ci c = fixCase ci p) (hp : p ≠ '?') (hp' : p ≠ '*') (t : Matches ci s q) : Matches ci (c :: s) (p :: q)
  | any (c s q) (t : Matches ci s q) : Matches ci (c :: s) ('?' :: q)
  | star (a s q) (t : Matches ci s q) : Matches ci (a ++ s) ('*' :: q)

theorem toLower_star (c : Char) (h : c.toLower = '*') : c = '*' := by
  unfold Char.toLower at h
  split at h
  · rename_i hc
    exfalso
    have := congrArg Char.toNat h
    simp only [Char.toNat] at this
    have h2 : (c.val + 32).toNat = 42 := this
    have h3 : 65 ≤ c.val.toNat ∧ c.val.toNat ≤ 90 := by
      exact ⟨UInt32.le_iff_toNat_le.mp hc.1, UInt32.le_iff_toNat_le.mp hc.2⟩
    rw [UInt32.toNat_add] at h2
    have h4 : (32 : UInt32).toNat = 32 := rfl
    rw [h4] at h2
    omega
  · exact h

theorem fix_star (ci : Bool) (c : Char) (h : fixCase ci c = fixCase ci '*') : c = '*' := by
  unfold fixCase at h
  cases ci with
  | false => exact h
  | true => exact toLower_star c h

theorem fix_quest_star (ci : Bool) : fixCase ci '?' ≠ fixCase ci '*' := by cases ci <;> decide

theorem star_any (ci : Bool) (a s q : List Char) (h : Matches ci s ('*' :: q)) : Matches ci (a ++ s) ('*' :: q) := by
  generalize hp : '*' :: q = p at h
  cases h with
  | nil => cases hp
  | lit c p s q h h1 h2 t => cases hp; exact absurd rfl h2
  | any c s q t => cases hp
  | star b s q t =>
    cases hp
    rw [← List.append_assoc]
    exact .star _ _ _ t

/-- **C44, soundness**: for every subject and pattern, what is accepted is an instance of the pattern. -/
theorem wmatch_sound (ci : Bool) (s p : List Char) (h : wmatch ci s p = true) : Matches ci s p := by
  induction s, p using wmatch.induct ci with
  | case1 => exact .nil
  | case2 p q => rw [wmatch] at h; cases h
  | case3 c s => rw [wmatch] at h; cases h
  | case4 c s p q he ih =>
    rw [wmatch, if_pos he] at h
    have ht := ih h
    by_cases h1 : p = '?'
    · subst h1; exact .any _ _ _ ht
    · by_cases h2 : p = '*'
      · subst h2; exact .star [c] s q ht
      · exact .lit _ _ _ _ he h1 h2 ht
  | case5 c s q he ih =>
    rw [wmatch, if_neg he, if_pos rfl] at h
    exact .any _ _ _ (ih h)
  | case6 c s q hq he hw ih =>
    exact star_any ci [c] s q (ih hw)
  | case7 c s q hw2 he hq hw1 ih1 ih2 =>
    exact .star [] _ _ (ih2 hw2)
  | case8 c s q hw2 he hq hw1 ih1 ih2 ih3 =>
    rw [wmatch, if_neg he, if_neg hq, if_pos rfl, if_neg hw1, if_neg hw2] at h
    exact .star [c] s q (ih3 h)
  | case9 c s p q he h1 h2 =>
    rw [wmatch, if_neg he, if_neg h1, if_neg h2] at h; cases h

theorem wmatch_star_cons (ci : Bool) (c : Char) (s q : List Char) (hc : c ≠ '*') :
    wmatch ci (c :: s) ('*' :: q) = (wmatch ci s ('*' :: q) || wmatch ci (c :: s) q || wmatch ci s q) := by
  rw [wmatch, if_neg (fun h => hc (fix_star ci c h)), if_neg (by decide), if_pos rfl]
  cases wmatch ci s ('*' :: q) <;> cases wmatch ci (c :: s) q <;> simp

/-- star followed by something that matches the rest of a non-empty subject -/
theorem wmatch_star_append (ci : Bool) (a s q : List Char) (hs : s ≠ []) (ha : ∀ c ∈ a ++ s, c ≠ '*') (h : wmatch ci s q = true) :
    wmatch ci (a ++ s) ('*' :: q) = true := by
  induction a with
  | nil =>
    cases s with
    | nil => exact absurd rfl hs
    | cons c s =>
      rw [List.nil_append, wmatch_star_cons ci c s q (ha c (by simp)), h]; simp
  | cons c a ih =>
    rw [List.cons_append, wmatch_star_cons ci c _ q (ha c (by simp)), ih (fun d hd => ha d (by simp at hd ⊢; exact Or.inr hd))]; simp

theorem wmatch_stars_end (ci : Bool) (a q : List Char) (ha : a ≠ []) (hs : ∀ c ∈ a, c ≠ '*') (h : wmatch ci [] q = true) :
    wmatch ci a ('*' :: q) = true := by
  have hq : q = [] := by
    cases q with
    | nil => rfl
    | cons p q => rw [wmatch] at h; cases h
  subst hq
  induction a with
  | nil => exact absurd rfl ha
  | cons c a ih =>
    rw [wmatch_star_cons ci c a [] (hs c (by simp))]
    cases a with
    | nil => simp [h]
    | cons d a => rw [ih (by simp) (fun e he => hs e (by simp at he ⊢; exact Or.inr he))]; simp

/-- **C44, completeness (partial).** A subject without `*`, a pattern that does not end in `*`: every instance is accepted. -/
theorem wmatch_complete_partial (ci : Bool) (s p : List Char) (h : Matches ci s p) (hs : ∀ c ∈ s, c ≠ '*') (hp : p.getLast? ≠ some '*') :
    wmatch ci s p = true := by
  induction h with
  | nil => rw [wmatch]
  | lit c p s q he h1 h2 t ih =>
    rw [wmatch, if_pos he]
    refine ih (fun d hd => hs d (by simp [hd])) ?_
    intro hq
    cases q with
    | nil => cases hq
    | cons a q => exact hp (by rw [List.getLast?_cons_cons]; exact hq)
  | any c s q t ih =>
    have hrec : wmatch ci s q = true := by
      refine ih (fun d hd => hs d (by simp [hd])) ?_
      intro hq
      cases q with
      | nil => cases hq
      | cons a q => exact hp (by rw [List.getLast?_cons_cons]; exact hq)
    rw [wmatch]
    split
    · exact hrec
    · rw [if_pos rfl]; exact hrec
  | star a s q t ih =>
    cases q with
    | nil => exact absurd rfl hp
    | cons p q =>
      have hrec : wmatch ci s (p :: q) = true :=
        ih (fun d hd => hs d (by simp [hd])) (by rw [List.getLast?_cons_cons] at hp; exact hp)
      cases s with
      | nil => rw [wmatch] at hrec; cases hrec
      | cons c s => exact wmatch_star_append ci a (c :: s) (p :: q) (by simp) hs hrec

/-- **C44, a pattern ending in `*` (exact).** For a subject without `*`: accepted iff the subject is an instance with at least one
character for the last star. -/
theorem wmatch_trailing_star (ci : Bool) (s p : List Char) (hs : ∀ c ∈ s, c ≠ '*') :
    wmatch ci s (p ++ ['*']) = true ↔ ∃ a b, b ≠ [] ∧ s = a ++ b ∧ Matches ci a p := by
  constructor
  · intro h
    generalize hq : p ++ ['*'] = q at h
    induction s, q using wmatch.induct ci generalizing p with
    | case1 => simp at hq
    | case2 p' q' => rw [wmatch] at h; cases h
    | case3 c s => simp at hq
    | case4 c s p' q' he ih =>
      rw [wmatch, if_pos he] at h
      cases p with
      | nil =>
        simp only [List.nil_append, List.cons.injEq] at hq
        obtain ⟨rfl, rfl⟩ := hq
        exact absurd (fix_star ci c he) (hs c (by simp))
      | cons x p =>
        simp only [List.cons_append, List.cons.injEq] at hq
        obtain ⟨rfl, rfl⟩ := hq
        obtain ⟨a, b, hb, e, hm⟩ := ih p (fun d hd => hs d (by simp [hd])) rfl h
        refine ⟨c :: a, b, hb, by rw [e]; rfl, ?_⟩
        by_cases h1 : x = '?'
        · subst h1; exact .any _ _ _ hm
        · by_cases h2 : x = '*'
          · subst h2; exact .star [c] _ _ hm
          · exact .lit _ _ _ _ he h1 h2 hm
    | case5 c s q' he ih =>
      rw [wmatch, if_neg he, if_pos rfl] at h
      cases p with
      | nil => simp at hq
      | cons x p =>
        simp only [List.cons_append, List.cons.injEq] at hq
        obtain ⟨rfl, rfl⟩ := hq
        obtain ⟨a, b, hb, e, hm⟩ := ih p (fun d hd => hs d (by simp [hd])) rfl h
        exact ⟨c :: a, b, hb, by rw [e]; rfl, .any _ _ _ hm⟩
    | case6 c s q' hq' he hw ih =>
      obtain ⟨a, b, hb, e, hm⟩ := ih p (fun d hd => hs d (by simp [hd])) hq hw
      cases p with
      | nil =>
        refine ⟨[], c :: s, by simp, rfl, .nil⟩
      | cons x p =>
        simp only [List.cons_append, List.cons.injEq] at hq
        obtain ⟨rfl, rfl⟩ := hq
        exact ⟨c :: a, b, hb, by rw [e]; rfl, star_any ci [c] a p hm⟩
    | case7 c s q' hw2 he hq' hw1 ih1 ih2 =>
      cases p with
      | nil => exact ⟨[], c :: s, by simp, rfl, .nil⟩
      | cons x p =>
        simp only [List.cons_append, List.cons.injEq] at hq
        obtain ⟨rfl, rfl⟩ := hq
        obtain ⟨a, b, hb, e, hm⟩ := ih2 p hs rfl hw2
        exact ⟨a, b, hb, e, .star [] _ _ hm⟩
    | case8 c s q' hw2 he hq' hw1 ih1 ih2 ih3 =>
      rw [wmatch, if_neg he, if_neg hq', if_pos rfl, if_neg hw1, if_neg hw2] at h
      cases p with
      | nil => exact ⟨[], c :: s, by simp, rfl, .nil⟩
      | cons x p =>
        simp only [List.cons_append, List.cons.injEq] at hq
        obtain ⟨rfl, rfl⟩ := hq
        obtain ⟨a, b, hb, e, hm⟩ := ih3 p (fun d hd => hs d (by simp [hd])) rfl h
        exact ⟨c :: a, b, hb, by rw [e]; rfl, .star [c] _ _ hm⟩
    | case9 c s p' q' he h1 h2 =>
      rw [wmatch, if_neg he, if_neg h1, if_neg h2] at h; cases h
  · rintro ⟨a, b, hb, rfl, hm⟩
    induction hm with
    | nil => exact wmatch_stars_end ci b [] hb (by simpa using hs) (by rw [wmatch])
    | lit c p s q he h1 h2 t ih =>
      rw [List.cons_append, List.cons_append, wmatch, if_pos he]
      exact ih fun d hd => hs d (by rw [List.cons_append]; exact List.mem_cons_of_mem _ hd)
    | any c s q t ih =>
      have hrec := ih fun d hd => hs d (by rw [List.cons_append]; exact List.mem_cons_of_mem _ hd)
      rw [List.cons_append, List.cons_append, wmatch]
      split
      · exact hrec
      · rw [if_pos rfl]; exact hrec
    | star x s q t ih =>
      have hrec := ih fun d hd => hs d (by simp at hd ⊢; tauto)
      rw [List.cons_append, List.append_assoc]
      exact wmatch_star_append ci x (s ++ b) _ (by simp [hb]) (by simpa [List.append_assoc] using hs) hrec

/-- **C44 fails for a final star over nothing**: `r*` does not match `r`, though it is an instance. -/
theorem trailing_star_wrong (ci : Bool) (s : List Char) (hs : ∀ c ∈ s, c ≠ '*' ∧ c ≠ '?') :
    Matches ci s (s ++ ['*']) ∧ wmatch ci s (s ++ ['*']) = false := by
  have hm : ∀ (s : List Char), (∀ c ∈ s, c ≠ '*' ∧ c ≠ '?') → Matches ci s (s ++ ['*']) := by
    intro s hs
    induction s with
    | nil => exact .star [] [] [] .nil
    | cons c s ih =>
      exact .lit c c _ _ rfl (hs c (by simp)).2 (hs c (by simp)).1 (ih fun d hd => hs d (by simp [hd]))
  refine ⟨hm s hs, ?_⟩
  clear hm
  induction s with
  | nil => rw [List.nil_append, wmatch]
  | cons c s ih => rw [List.cons_append, wmatch, if_pos rfl]; exact ih fun d hd => hs d (by simp [hd])

/-- **C44 fails for a subject that contains a star**: the pattern `*` alone does not match `*a`. -/
theorem star_in_subject_wrong (ci : Bool) : Matches ci ['*', 'a'] ['*'] ∧ wmatch ci ['*', 'a'] ['*'] = false := by
  refine ⟨.star ['*', 'a'] [] [] .nil, ?_⟩
  rw [wmatch, if_pos rfl, wmatch]

example : Matches true "Rload".toList "r?o*d".toList ∧ wmatch true "Rload".toList "r?o*d".toList = true := by
  have h : wmatch true "Rload".toList "r?o*d".toList = true := by
    apply wmatch_complete_partial
    · exact .lit _ _ _ _ (by decide) (by decide) (by decide) (.any _ _ _ (.lit _ _ _ _ (by decide) (by decide) (by decide)
        (.star ['a'] _ _ (.lit _ _ _ _ (by decide) (by decide) (by decide) .nil))))
    · decide
    · decide
  exact ⟨wmatch_sound _ _ _ h, h⟩

end Gnucap.Wmatch
