import Verif.FindModel
import Mathlib.Data.Fintype.Card
import Mathlib.Tactic.Push

/-! Claim C86: what a model name or a subcircuit name stands for, from where it is written.

The specification says it by places: `First`, the first card of that name in a list; `Offers`, what one
list has to offer for a model name with its numbered bins; and the nearest list that has something. -/

namespace Gnucap.Find

variable {D : Type}

/-- The card has that name. -/
def Bears (ci : Bool) (n : Name) (c : Card D) : Prop :=
  if ci then c.label.map Char.toLower = n.map Char.toLower else c.label = n

instance (ci : Bool) (n : Name) (c : Card D) : Decidable (Bears ci n c) := by unfold Bears; infer_instance

/-- `c` is the first card in the list that has the name. -/
def First (ci : Bool) (cards : List (Card D)) (n : Name) (c : Card D) : Prop :=
  ∃ a b, cards = a ++ c :: b ∧ Bears ci n c ∧ ∀ x ∈ a, ¬ Bears ci n x

theorem same_bears (ci : Bool) (n : Name) (c : Card D) : same ci c.label n = true ↔ Bears ci n c := by
  unfold same Bears
  cases ci <;> simp

theorem find_first (ci : Bool) (cards : List (Card D)) (n : Name) (c : Card D) :
    find ci cards n = some c ↔ First ci cards n c := by
  unfold find First
  rw [List.find?_eq_some_iff_append]
  constructor
  · rintro ⟨h1, a, b, h2, h3⟩
    refine ⟨a, b, h2, (same_bears ci n c).mp h1, fun x hx hb => ?_⟩
    have := h3 x hx
    rw [(same_bears ci n x).mpr hb] at this
    exact absurd this (by decide)
  · rintro ⟨a, b, h2, h1, h3⟩
    refine ⟨(same_bears ci n c).mpr h1, a, b, h2, fun x hx => ?_⟩
    have := h3 x hx
    rw [← same_bears] at this
    simpa using this

theorem find_none (ci : Bool) (cards : List (Card D)) (n : Name) :
    find ci cards n = none ↔ ∀ x ∈ cards, ¬ Bears ci n x := by
  unfold find
  rw [List.find?_eq_none]
  constructor
  · intro h x hx hb
    exact h x hx ((same_bears ci n x).mpr hb)
  · intro h x hx hb
    exact h x hx ((same_bears ci n x).mp hb)

theorem first_unique {ci : Bool} {cards : List (Card D)} {n : Name} {c c' : Card D}
    (h : First ci cards n c) (h' : First ci cards n c') : c = c' := by
  rw [← find_first] at h h'
  exact Option.some.inj (h.symm.trans h')

theorem first_not {ci : Bool} {cards : List (Card D)} {n : Name} {c : Card D}
    (h : First ci cards n c) : ¬ ∀ x ∈ cards, ¬ Bears ci n x := by
  obtain ⟨a, b, rfl, hb, -⟩ := h
  intro hall
  exact hall c (by simp) hb

/-! ## Subcircuit names -/

/-- The list that is asked at the `k`-th place out: the definition that the list there is a copy of, else
the list; the root list in the end. -/
def defAt (root : List (Card D)) (chain : List (Level D)) (k : ℕ) : List (Card D) :=
  match chain[k]? with
  | some l => l.parent.getD l.cards
  | none => root

/-- A subcircuit name stands for the first card of that name in the nearest list around that has one. -/
theorem looking_out (ci : Bool) (root : List (Card D)) (chain : List (Level D)) (n : Name) (c : Card D) :
    findOut ci root chain n = some c ↔
      ∃ k ≤ chain.length, First ci (defAt root chain k) n c ∧
        ∀ j < k, ∀ x ∈ defAt root chain j, ¬ Bears ci n x := by
  induction chain with
  | nil =>
    have : findOut ci root [] n = find ci root n := rfl
    rw [this, find_first]
    constructor
    · intro h
      exact ⟨0, le_refl _, h, fun j hj => absurd hj (Nat.not_lt_zero _)⟩
    · rintro ⟨k, hk, h, -⟩
      have : k = 0 := by simpa using hk
      subst this
      exact h
  | cons l r ih =>
    have h0 : findParent ci root (l :: r) n = find ci (defAt root (l :: r) 0) n := rfl
    have hs : ∀ k, defAt root (l :: r) (k + 1) = defAt root r k := fun k => rfl
    unfold findOut
    rw [h0]
    cases hf : find ci (defAt root (l :: r) 0) n with
    | some c' =>
      have hf' := (find_first _ _ _ _).mp hf
      constructor
      · intro h
        obtain rfl : c' = c := Option.some.inj h
        exact ⟨0, Nat.zero_le _, hf', fun j hj => absurd hj (Nat.not_lt_zero _)⟩
      · rintro ⟨k, hk, h, hn⟩
        cases k with
        | zero => rw [first_unique h hf']
        | succ k => exact absurd (hn 0 (Nat.succ_pos _)) (first_not hf')
    | none =>
      have hf' := (find_none _ _ _).mp hf
      show findOut ci root r n = some c ↔ _
      rw [ih]
      constructor
      · rintro ⟨k, hk, h, hn⟩
        refine ⟨k + 1, by simpa using hk, h, fun j hj => ?_⟩
        cases j with
        | zero => exact hf'
        | succ j => exact hn j (by omega)
      · rintro ⟨k, hk, h, hn⟩
        cases k with
        | zero => exact absurd hf' (first_not h)
        | succ k => exact ⟨k, by simpa using hk, h, fun j hj => hn (j + 1) (by omega)⟩

/-- Nothing is found only when no list around has the name. -/
theorem looking_out_none (ci : Bool) (root : List (Card D)) (chain : List (Level D)) (n : Name) :
    findOut ci root chain n = none ↔ ∀ k ≤ chain.length, ∀ x ∈ defAt root chain k, ¬ Bears ci n x := by
  induction chain with
  | nil =>
    have : findOut ci root [] n = find ci root n := rfl
    rw [this, find_none]
    constructor
    · intro h k hk
      have : k = 0 := by simpa using hk
      subst this
      exact h
    · intro h
      exact h 0 (le_refl _)
  | cons l r ih =>
    have h0 : findParent ci root (l :: r) n = find ci (defAt root (l :: r) 0) n := rfl
    unfold findOut
    rw [h0]
    cases hf : find ci (defAt root (l :: r) 0) n with
    | some c' =>
      have hf' := first_not ((find_first _ _ _ _).mp hf)
      constructor
      · intro h; cases h
      · intro h; exact absurd (h 0 (Nat.zero_le _)) hf'
    | none =>
      show findOut ci root r n = none ↔ _
      rw [ih]
      constructor
      · intro h k hk
        cases k with
        | zero => exact (find_none _ _ _).mp hf
        | succ k => exact h k (by simpa using hk)
      · intro h k hk
        exact h (k + 1) (by simpa using hk)

/-- An instance is expanded from the nearest card of that name if that card is a definition; the cards in
its list see the definition's list, then what the instance sees. -/
theorem instance_of (ci : Bool) (root : List (Card D)) (chain chain' : List (Level D)) (n : Name) :
    enter ci root chain n = .ok chain' ↔
      ∃ l body, findOut ci root chain n = some (.proto l body) ∧
        chain' = ⟨body.filter (fun c => match c with
          | .model _ _ => true | .device _ => true | .inst _ _ => true | _ => false), some body⟩ :: chain := by
  have hc : (fun c : Card D => match c with
      | .model _ _ => true | .device _ => true | .inst _ _ => true | _ => false) = Card.copied := by
    funext c; cases c <;> rfl
  rw [hc]
  unfold enter
  cases findOut ci root chain n with
  | none => simp
  | some c =>
    cases c with
    | proto l body =>
      simp only [Entered.ok.injEq, Option.some.injEq, Card.proto.injEq]
      constructor
      · intro h
        exact ⟨l, body, ⟨rfl, rfl⟩, h.symm⟩
      · rintro ⟨l', b', ⟨rfl, rfl⟩, h⟩
        exact h.symm
    | model l v => simp
    | device l => simp
    | inst l o => simp
    | other l => simp

/-- "can't find" is said when no list around has the name, and only then; a card that is no definition is a type mismatch. -/
theorem instance_unknown (ci : Bool) (root : List (Card D)) (chain : List (Level D)) (n : Name) :
    (enter ci root chain n = .cantFind ↔ ∀ k ≤ chain.length, ∀ x ∈ defAt root chain k, ¬ Bears ci n x) ∧
      (enter ci root chain n = .mismatch ↔ ∃ c, findOut ci root chain n = some c ∧ ∀ l body, c ≠ .proto l body) := by
  rw [← looking_out_none]
  unfold enter
  cases findOut ci root chain n with
  | none => simp
  | some c => cases c <;> simp

/-! ## Names are looked up where the instance stands, not where the definition stands -/

/-- The definition was found at the `k`-th place out.  Seen from the text, the cards in it should see its
own list and then what is around the definition, `chain.drop k`.  They do for every name that no place
between the instance and the definition has. -/
theorem lexical_partial (ci : Bool) (root : List (Card D)) (chain : List (Level D)) (body : List (Card D))
    (k : ℕ) (hk : k ≤ chain.length) (n : Name)
    (free : ∀ j < k, ∀ x ∈ defAt root chain j, ¬ Bears ci n x) :
    findOut ci root (expanded body :: chain) n = findOut ci root (expanded body :: chain.drop k) n := by
  have key : findOut ci root chain n = findOut ci root (chain.drop k) n := by
    induction k generalizing chain with
    | zero => simp
    | succ k ih =>
      cases chain with
      | nil => simp at hk
      | cons l r =>
        have h0 : findParent ci root (l :: r) n = find ci (defAt root (l :: r) 0) n := rfl
        have hn := (find_none ci _ n).mpr (free 0 (Nat.succ_pos _))
        have : findOut ci root (l :: r) n = findOut ci root r n := by
          conv_lhs => unfold findOut
          rw [h0, hn]
        rw [this, List.drop_succ_cons]
        exact ih r (by simpa using hk) (fun j hj => free (j + 1) (by omega))
  have h1 : ∀ ch : List (Level D), findOut ci root (expanded body :: ch) n =
      match find ci body n with | some c => some c | none => findOut ci root ch n := fun ch => rfl
  rw [h1, h1, key]

/-- With a place in between that has the name, it is that one's that is taken: a subcircuit `a` of the
root circuit uses `s` of the root circuit; a subcircuit `b` that has its own `s` uses `a`.  The `s` inside
that `a` is the one of `b`. -/
theorem captured :
    ∃ (root : List (Card Unit)) (abody bbody mine yours : List (Card Unit)),
      findProto true root abody ['s'] = some (.proto ['s'] mine) ∧
      enter true root [] ['b'] = .ok [expanded bbody] ∧
      enter true root [expanded bbody] ['a'] = .ok [expanded abody, expanded bbody] ∧
      enter true root [expanded abody, expanded bbody] ['s'] =
        .ok [expanded yours, expanded abody, expanded bbody] ∧
      mine ≠ yours :=
  ⟨[.proto ['s'] [.device ['r', '1']], .proto ['a'] [.inst ['x', '1'] ['s']],
      .proto ['b'] [.proto ['s'] [.device ['c', '1']], .inst ['x', '2'] ['a']], .inst ['x', '3'] ['b']],
    [.inst ['x', '1'] ['s']], [.proto ['s'] [.device ['c', '1']], .inst ['x', '2'] ['a']],
    [.device ['r', '1']], [.device ['c', '1']], rfl, rfl, rfl, rfl, by intro h; injection h with h; cases h⟩

/-- While the body of a definition is read, a definition inside another sees its own list and the root
list, not the list it stands in; when it is expanded, the instance does see that list. -/
theorem reading_skips (ci : Bool) (root body : List (Card D)) (n : Name) (c : Card D) :
    findProto ci root body n = some c ↔
      First ci body n c ∨ ((∀ x ∈ body, ¬ Bears ci n x) ∧ First ci root n c) := by
  unfold findProto
  cases hf : find ci body n with
  | some c' =>
    have hf' := (find_first _ _ _ _).mp hf
    constructor
    · intro h
      obtain rfl : c' = c := Option.some.inj h
      exact Or.inl hf'
    · rintro (h | ⟨h, -⟩)
      · rw [first_unique h hf']
      · exact absurd h (first_not hf')
  | none =>
    have hf' := (find_none _ _ _).mp hf
    show find ci root n = some c ↔ _
    rw [find_first]
    constructor
    · intro h; exact Or.inr ⟨hf', h⟩
    · rintro (h | ⟨-, h⟩)
      · exact absurd hf' (first_not h)
      · exact h

theorem reading_skips_witness :
    ∃ (root outer inner : List (Card Unit)),
      .proto ['o'] outer ∈ root ∧ .proto ['i'] inner ∈ outer ∧
      findProto true root inner ['t'] = none ∧
      enter true root [expanded outer] ['i'] = .ok [expanded inner, expanded outer] ∧
      enter true root [expanded inner, expanded outer] ['t'] =
        .ok [expanded [.device ['r', '1']], expanded inner, expanded outer] :=
  ⟨[.proto ['o'] [.proto ['t'] [.device ['r', '1']], .proto ['i'] [.inst ['x', '1'] ['t']], .inst ['x', '2'] ['i']]],
    [.proto ['t'] [.device ['r', '1']], .proto ['i'] [.inst ['x', '1'] ['t']], .inst ['x', '2'] ['i']],
    [.inst ['x', '1'] ['t']], by simp, by simp, rfl, rfl, rfl⟩

/-! ## Model names -/

/-- The bin `m.k`. -/
def binText (m : Name) (k : ℕ) : Name := m ++ ['.'] ++ Nat.toDigits 10 k

/-- What a list has to offer for the model name `m` to a device: the card of that name, whatever it is and
whether it fits or not; or, if there is none, of `m.1`, `m.2` … as far as they go without a gap, the first
that is a model that fits. -/
def Offers (ci : Bool) (s : List (Card D)) (d : D) (m : Name) (c : Card D) : Prop :=
  First ci s m c ∨
    ((∀ x ∈ s, ¬ Bears ci m x) ∧
      ∃ k, 1 ≤ k ∧ First ci s (binText m k) c ∧ (∃ l v, c = .model l v ∧ v d = true) ∧
        ∀ j, 1 ≤ j → j < k → ∃ c', First ci s (binText m j) c' ∧ ¬ ∃ l v, c' = .model l v ∧ v d = true)

theorem valid_iff (d : D) (c : Card D) : c.validFor d = true ↔ ∃ l v, c = .model l v ∧ v d = true := by
  cases c with
  | model l v =>
    constructor
    · intro h; exact ⟨l, v, rfl, h⟩
    · rintro ⟨l', v', h, hv⟩; injection h with h1 h2; subst h2; exact hv
  | device l => simp [Card.validFor]
  | inst l o => simp [Card.validFor]
  | proto l b => simp [Card.validFor]
  | other l => simp [Card.validFor]

theorem binName_text (m : Name) (k : ℕ) : binName m k = binText m k := by
  simp [binName, binText]

/-- `strcasecmp` does not take two bins for the same. -/
theorem bin_apart {ci : Bool} {m : Name} {i j : ℕ} {c : Card D}
    (hi : Bears ci (binText m i) c) (hj : Bears ci (binText m j) c) : i = j := by
  have dig : ∀ k : ℕ, (Nat.toDigits 10 k).map Char.toLower = Nat.toDigits 10 k := by
    intro k
    conv_rhs => rw [← List.map_id (Nat.toDigits 10 k)]
    refine List.map_congr_left fun ch hch => ?_
    have h := Nat.isDigit_of_mem_toDigits (b := 10) (by decide) (by decide) hch
    have h' : ¬ (ch.val ≥ 'A'.val ∧ ch.val ≤ 'Z'.val) := by
      rintro ⟨h1, -⟩
      simp only [Char.isDigit, Bool.and_eq_true, decide_eq_true_eq] at h
      have h2 := h.2
      exact absurd (UInt32.le_trans h1 h2) (by decide)
    show ch.toLower = id ch
    simp only [id]
    unfold Char.toLower
    rw [dif_neg h']
  have e : Nat.toDigits 10 i = Nat.toDigits 10 j := by
    unfold Bears binText at hi hj
    cases ci with
    | true =>
      simp only [if_true, List.map_append, dig] at hi hj
      have := hi.symm.trans hj
      simpa using this
    | false =>
      simp only [Bool.false_eq_true, if_false] at hi hj
      have := hi.symm.trans hj
      simpa using this
  have := congrArg (fun l => Nat.ofDigitChars 10 l 0) e
  simpa [Nat.ofDigitChars_toDigits] using this

/-- As many bins without a gap, as many cards. -/
theorem bins_le (ci : Bool) (s : List (Card D)) (m : Name) (K : ℕ)
    (h : ∀ j, 1 ≤ j → j ≤ K → ∃ c ∈ s, Bears ci (binText m j) c) : K ≤ s.length := by
  have hx : ∀ j : Fin K, ∃ i : Fin s.length, Bears ci (binText m (j.1 + 1)) s[i] := by
    intro j
    obtain ⟨c, hc, hb⟩ := h (j.1 + 1) (by omega) (by omega)
    obtain ⟨i, hi, rfl⟩ := List.getElem_of_mem hc
    exact ⟨⟨i, hi⟩, hb⟩
  choose f hf using hx
  have inj : Function.Injective f := by
    intro a b hab
    have ha := hf a
    rw [hab] at ha
    have := bin_apart ha (hf b)
    exact Fin.ext (by omega)
  simpa using Fintype.card_le_of_injective f inj

/-- The loop, from a place up to which no bin fitted. -/
theorem bins_spec (ci : Bool) (s : List (Card D)) (d : D) (m : Name) :
    ∀ f k, s.length + 1 ≤ f + k →
      (∀ j, 1 ≤ j → j ≤ k → ∃ c', First ci s (binText m j) c' ∧ ¬ ∃ l v, c' = .model l v ∧ v d = true) →
      (∀ c k', bins ci s d m f k = (some c, k') → 1 ≤ k' ∧ First ci s (binText m k') c ∧
          (∃ l v, c = .model l v ∧ v d = true) ∧
          ∀ j, 1 ≤ j → j < k' → ∃ c', First ci s (binText m j) c' ∧ ¬ ∃ l v, c' = .model l v ∧ v d = true) ∧
      (∀ k', bins ci s d m f k = (none, k') → 1 ≤ k' ∧ (∀ x ∈ s, ¬ Bears ci (binText m k') x) ∧
          ∀ j, 1 ≤ j → j < k' → ∃ c', First ci s (binText m j) c' ∧ ¬ ∃ l v, c' = .model l v ∧ v d = true) := by
  intro f
  induction f with
  | zero =>
    intro k hk hb
    exfalso
    have := bins_le ci s m k (fun j h1 h2 => by
      obtain ⟨c', ⟨a, b, rfl, hb', -⟩, -⟩ := hb j h1 h2
      exact ⟨c', by simp, hb'⟩)
    omega
  | succ f ih =>
    intro k hk hb
    unfold bins
    rw [binName_text]
    cases hf : find ci s (binText m (k + 1)) with
    | none =>
      have hf' := (find_none _ _ _).mp hf
      constructor
      · intro c k' h; cases h
      · intro k' h
        obtain rfl : k + 1 = k' := congrArg Prod.snd h
        exact ⟨by omega, hf', fun j h1 h2 => hb j h1 (by omega)⟩
    | some c' =>
      have hf' := (find_first _ _ _ _).mp hf
      by_cases hv : c'.validFor d = true
      · simp only [hv, if_true]
        constructor
        · intro c k' h
          obtain ⟨h1, rfl⟩ := Prod.mk.inj h
          obtain rfl := Option.some.inj h1
          exact ⟨by omega, hf', (valid_iff d c').mp hv, fun j h1 h2 => hb j h1 (by omega)⟩
        · intro k' h; cases h
      · simp only [hv, if_false, Bool.false_eq_true]
        refine ih (k + 1) (by omega) fun j h1 h2 => ?_
        by_cases hj : j = k + 1
        · subst hj
          exact ⟨c', hf', fun h => hv ((valid_iff d c').mpr h)⟩
        · exact hb j h1 (by omega)

/-- The search for bins ends: with any more turns allowed it comes to the same. -/
theorem bins_end (ci : Bool) (s : List (Card D)) (d : D) (m : Name) (f : ℕ) (hf : s.length + 1 ≤ f) :
    bins ci s d m f 0 = bins ci s d m (s.length + 1) 0 := by
  have more : ∀ g k, s.length + 1 ≤ g + k →
      (∀ j, 1 ≤ j → j ≤ k → ∃ c ∈ s, Bears ci (binText m j) c) →
      bins ci s d m (g + 1) k = bins ci s d m g k := by
    intro g
    induction g with
    | zero =>
      intro k hk hb
      have := bins_le ci s m k hb
      omega
    | succ g ih =>
      intro k hk hb
      conv_lhs => unfold bins
      conv_rhs => unfold bins
      cases hf : find ci s (binName m (k + 1)) with
      | none => rfl
      | some c =>
        by_cases hv : c.validFor d = true
        · simp [hv]
        · simp only [hv, Bool.false_eq_true, if_false]
          refine ih (k + 1) (by omega) fun j h1 h2 => ?_
          by_cases hj : j = k + 1
          · subst hj
            rw [binName_text] at hf
            obtain ⟨a, b, rfl, hb', -⟩ := (find_first _ _ _ _).mp hf
            exact ⟨c, by simp, hb'⟩
          · exact hb j h1 (by omega)
  obtain ⟨e, rfl⟩ := Nat.exists_eq_add_of_le hf
  induction e with
  | zero => rfl
  | succ e ih =>
    rw [← ih (by omega)]
    exact more (s.length + 1 + e) 0 (by omega) (fun j h1 h2 => absurd h2 (by omega))

/-- A list offers one thing at most. -/
theorem offers_unique {ci : Bool} {s : List (Card D)} {d : D} {m : Name} {c c' : Card D}
    (h : Offers ci s d m c) (h' : Offers ci s d m c') : c = c' := by
  rcases h with h | ⟨hn, k, hk, hf, hv, hj⟩
  · rcases h' with h' | ⟨hn', -⟩
    · exact first_unique h h'
    · exact absurd hn' (first_not h)
  · rcases h' with h' | ⟨-, k', hk', hf', hv', hj'⟩
    · exact absurd hn (first_not h')
    · rcases lt_trichotomy k k' with hlt | rfl | hlt
      · obtain ⟨x, hx, hnv⟩ := hj' k hk hlt
        rw [first_unique hx hf] at hnv
        exact absurd hv hnv
      · exact first_unique hf hf'
      · obtain ⟨x, hx, hnv⟩ := hj k' hk' hlt
        rw [first_unique hx hf'] at hnv
        exact absurd hv' hnv

theorem oneScope_some (ci : Bool) (s : List (Card D)) (d : D) (m : Name) (k : ℕ) (c : Card D) :
    (oneScope ci s d m k).1 = some c ↔ Offers ci s d m c := by
  unfold oneScope Offers
  cases hf : find ci s m with
  | some c' =>
    have hf' := (find_first _ _ _ _).mp hf
    constructor
    · intro h
      obtain rfl : c' = c := Option.some.inj h
      exact Or.inl hf'
    · rintro (h | ⟨h, -⟩)
      · rw [first_unique h hf']
      · exact absurd h (first_not hf')
  | none =>
    have hf' := (find_none _ _ _).mp hf
    have sp := bins_spec ci s d m (s.length + 1) 0 (by omega) (fun j h1 h2 => absurd h2 (by omega))
    show (bins ci s d m (s.length + 1) 0).1 = some c ↔ _
    cases hb : bins ci s d m (s.length + 1) 0 with
    | mk o k' =>
      cases o with
      | some c' =>
        have h1 := sp.1 c' k' hb
        constructor
        · intro h
          obtain rfl : c' = c := Option.some.inj h
          exact Or.inr ⟨hf', k', h1⟩
        · rintro (h | h)
          · exact absurd hf' (first_not h)
          · have : c' = c := offers_unique (ci := ci) (s := s) (d := d) (m := m)
              (Or.inr ⟨hf', k', h1⟩) (Or.inr h)
            rw [this]
      | none =>
        obtain ⟨h1, h2, h3⟩ := sp.2 k' hb
        constructor
        · intro h; cases h
        · rintro (h | ⟨-, k2, hk2, hfk, hv, hj⟩)
          · exact absurd hf' (first_not h)
          · rcases lt_trichotomy k2 k' with hlt | rfl | hlt
            · obtain ⟨x, hx, hnv⟩ := h3 k2 hk2 hlt
              rw [first_unique hx hfk] at hnv
              exact absurd hv hnv
            · exact absurd h2 (first_not hfk)
            · obtain ⟨x, hx, -⟩ := hj k' h1 hlt
              exact absurd h2 (first_not hx)

theorem scopes_some (ci : Bool) (d : D) (m : Name) (c : Card D) :
    ∀ (ss : List (List (Card D))) (k : ℕ), (scopes ci d m ss k).1 = some c ↔
      ∃ a s b, ss = a ++ s :: b ∧ Offers ci s d m c ∧ ∀ t ∈ a, ∀ x, ¬ Offers ci t d m x := by
  intro ss
  induction ss with
  | nil =>
    intro k
    constructor
    · intro h; cases h
    · rintro ⟨a, s, b, h, -⟩; simp at h
  | cons s r ih =>
    intro k
    unfold scopes
    cases ho : oneScope ci s d m k with
    | mk o k' =>
      cases o with
      | some c' =>
        have h1 : Offers ci s d m c' := (oneScope_some ci s d m k c').mp (by rw [ho])
        constructor
        · intro h
          obtain rfl : c' = c := Option.some.inj h
          exact ⟨[], s, r, rfl, h1, by simp⟩
        · rintro ⟨a, t, b, h, hof, hn⟩
          cases a with
          | nil =>
            obtain ⟨rfl, rfl⟩ := List.cons.inj h
            rw [offers_unique h1 hof]
          | cons u a =>
            obtain ⟨rfl, rfl⟩ := List.cons.inj h
            exact absurd h1 (hn s (by simp) c')
      | none =>
        have h1 : ∀ x, ¬ Offers ci s d m x := fun x hx => by
          have := (oneScope_some ci s d m k x).mpr hx
          rw [ho] at this
          cases this
        show (scopes ci d m r k').1 = some c ↔ _
        rw [ih]
        constructor
        · rintro ⟨a, t, b, rfl, hof, hn⟩
          refine ⟨s :: a, t, b, rfl, hof, fun u hu => ?_⟩
          rcases List.mem_cons.mp hu with rfl | hu
          · exact h1
          · exact hn u hu
        · rintro ⟨a, t, b, h, hof, hn⟩
          cases a with
          | nil =>
            obtain ⟨rfl, rfl⟩ := List.cons.inj h
            exact absurd hof (h1 c)
          | cons u a =>
            obtain ⟨rfl, rfl⟩ := List.cons.inj h
            exact ⟨a, t, b, rfl, hof, fun v hv => hn v (by simp [hv])⟩

/-- The lists asked for a model name, from the inside. -/
def Nearest (ci : Bool) (root : List (Card D)) (chain : List (Level D)) (d : D) (m : Name) (c : Card D) : Prop :=
  ∃ a s b, chain.map Level.cards ++ [root] = a ++ s :: b ∧ Offers ci s d m c ∧ ∀ t ∈ a, ∀ x, ¬ Offers ci t d m x

/-- A device gets the model that the nearest list around it with something to offer has; with a warning
if it is a plain model that does not fit. -/
theorem model_found (ci : Bool) (root : List (Card D)) (chain : List (Level D)) (d : D) (m : Name) (c : Card D)
    (w : Bool) :
    findModel ci root chain d m = .ok c w ↔
      m ≠ [] ∧ Nearest ci root chain d m c ∧ ∃ l v, c = .model l v ∧ (w = true ↔ v d = false) := by
  unfold Nearest
  rw [← scopes_some ci d m c (chain.map Level.cards ++ [root]) 0]
  unfold findModel
  by_cases hm : m = []
  · simp [hm]
  · rw [if_neg hm]
    cases hs : scopes ci d m (chain.map Level.cards ++ [root]) 0 with
    | mk o k =>
      cases o with
      | none =>
        constructor
        · intro h
          exfalso
          revert h
          simp only
          split <;> intro h <;> cases h
        · rintro ⟨-, h, -⟩; cases h
      | some c' =>
        cases c' with
        | model l v =>
          constructor
          · intro h
            injection h with h1 h2
            refine ⟨hm, by rw [h1], l, v, h1.symm, ?_⟩
            rw [← h2]; simp
          · rintro ⟨-, h, l', v', rfl, hw⟩
            have h := Option.some.inj h
            injection h with h1 h2
            subst h1 h2
            have : (!v d) = w := by
              cases hv : v d <;> cases w <;> simp_all
            show Found.ok _ _ = _
            rw [this]
        | device l => constructor
                      · intro h; cases h
                      · rintro ⟨-, h, l', v', rfl, -⟩; cases h
        | inst l o => constructor
                      · intro h; cases h
                      · rintro ⟨-, h, l', v', rfl, -⟩; cases h
        | proto l b => constructor
                       · intro h; cases h
                       · rintro ⟨-, h, l', v', rfl, -⟩; cases h
        | other l => constructor
                     · intro h; cases h
                     · rintro ⟨-, h, l', v', rfl, -⟩; cases h

/-- The nearest thing of that name is not a model: that is an error, and no list further out is asked. -/
theorem model_mismatch (ci : Bool) (root : List (Card D)) (chain : List (Level D)) (d : D) (m : Name) :
    findModel ci root chain d m = .mismatch ↔
      m ≠ [] ∧ ∃ c, Nearest ci root chain d m c ∧ ¬ ∃ l v, c = .model l v := by
  have hN : ∀ c, Nearest ci root chain d m c ↔ (scopes ci d m (chain.map Level.cards ++ [root]) 0).1 = some c :=
    fun c => (scopes_some ci d m c _ 0).symm
  simp only [hN]
  unfold findModel
  by_cases hm : m = []
  · simp [hm]
  · rw [if_neg hm]
    cases hs : scopes ci d m (chain.map Level.cards ++ [root]) 0 with
    | mk o k =>
      cases o with
      | none =>
        constructor
        · intro h
          exfalso
          revert h
          simp only
          split <;> intro h <;> cases h
        · rintro ⟨-, c, h, -⟩; cases h
      | some c' =>
        cases c' with
        | model l v =>
          constructor
          · intro h; cases h
          · rintro ⟨-, c, h, hn⟩
            obtain rfl := Option.some.inj h
            exact absurd ⟨l, v, rfl⟩ hn
        | device l => simp [hm]
        | inst l o => simp [hm]
        | proto l b => simp [hm]
        | other l => simp [hm]

/-- Nothing is found only if no list around has anything to offer. -/
theorem model_none (ci : Bool) (root : List (Card D)) (chain : List (Level D)) (d : D) (m : Name) (hm : m ≠ []) :
    (findModel ci root chain d m = .cantFind ∨ findModel ci root chain d m = .noBins) ↔
      ∀ s ∈ chain.map Level.cards ++ [root], ∀ c, ¬ Offers ci s d m c := by
  have key : (scopes ci d m (chain.map Level.cards ++ [root]) 0).1 = none ↔
      ∀ s ∈ chain.map Level.cards ++ [root], ∀ c, ¬ Offers ci s d m c := by
    generalize chain.map Level.cards ++ [root] = ss
    generalize (0 : ℕ) = k
    induction ss generalizing k with
    | nil => simp [scopes]
    | cons s r ih =>
      unfold scopes
      cases ho : oneScope ci s d m k with
      | mk o k' =>
        cases o with
        | some c' =>
          have h1 : Offers ci s d m c' := (oneScope_some ci s d m k c').mp (by rw [ho])
          constructor
          · intro h; cases h
          · intro h; exact absurd h1 (h s (by simp) c')
        | none =>
          have h1 : ∀ x, ¬ Offers ci s d m x := fun x hx => by
            have := (oneScope_some ci s d m k x).mpr hx
            rw [ho] at this
            cases this
          show (scopes ci d m r k').1 = none ↔ _
          rw [ih]
          constructor
          · intro h t ht
            rcases List.mem_cons.mp ht with rfl | ht
            · exact h1
            · exact h t ht
          · intro h t ht
            exact h t (by simp [ht])
  rw [← key]
  unfold findModel
  rw [if_neg hm]
  cases hs : scopes ci d m (chain.map Level.cards ++ [root]) 0 with
  | mk o k =>
    cases o with
    | none =>
      simp only
      split <;> simp
    | some c' => cases c' <;> simp

/-- "no bins match" is said only of the root circuit: exactly when there is nothing to be had and the root
list has `m.1`. -/
theorem no_bins (ci : Bool) (root : List (Card D)) (chain : List (Level D)) (d : D) (m : Name) (hm : m ≠ []) :
    findModel ci root chain d m = .noBins ↔
      (∀ s ∈ chain.map Level.cards ++ [root], ∀ c, ¬ Offers ci s d m c) ∧ ∃ x ∈ root, Bears ci (binText m 1) x := by
  have hk : ∀ (ss : List (List (Card D))) (k k' : ℕ), scopes ci d m (ss ++ [root]) k = (none, k') →
      (k' ≤ 1 ↔ ∀ x ∈ root, ¬ Bears ci (binText m 1) x) := by
    intro ss
    induction ss with
    | nil =>
      intro k k' h
      simp only [List.nil_append, scopes] at h
      have ho : oneScope ci root d m k = (none, k') := by
        cases ho : oneScope ci root d m k with
        | mk o k2 => cases o <;> rw [ho] at h <;> simpa using h
      unfold oneScope at ho
      cases hf : find ci root m with
      | some c => rw [hf] at ho; cases ho
      | none =>
        rw [hf] at ho
        have sp := (bins_spec ci root d m (root.length + 1) 0 (by omega)
          (fun j h1 h2 => absurd h2 (by omega))).2 k' ho
        constructor
        · intro hle
          have : k' = 1 := le_antisymm hle sp.1
          rw [this] at sp
          exact sp.2.1
        · intro hn
          by_contra hgt
          obtain ⟨x, hx, -⟩ := sp.2.2 1 (le_refl _) (by omega)
          exact absurd hn (first_not hx)
    | cons s r ih =>
      intro k k' h
      simp only [List.cons_append, scopes] at h
      cases ho : oneScope ci s d m k with
      | mk o k2 =>
        rw [ho] at h
        cases o with
        | some c => cases h
        | none => exact ih k2 k' h
  constructor
  · intro h
    refine ⟨(model_none ci root chain d m hm).mp (Or.inr h), ?_⟩
    unfold findModel at h
    rw [if_neg hm] at h
    cases hs : scopes ci d m (chain.map Level.cards ++ [root]) 0 with
    | mk o k =>
      rw [hs] at h
      cases o with
      | some c => cases c <;> cases h
      | none =>
        have h2 := hk (chain.map Level.cards) 0 k hs
        by_contra hn
        push Not at hn
        have := h2.mpr hn
        simp only [if_pos this] at h
        cases h
  · rintro ⟨h1, x, hx, hb⟩
    rcases (model_none ci root chain d m hm).mpr h1 with h | h
    · exfalso
      unfold findModel at h
      rw [if_neg hm] at h
      cases hs : scopes ci d m (chain.map Level.cards ++ [root]) 0 with
      | mk o k =>
        rw [hs] at h
        cases o with
        | some c => cases c <;> cases h
        | none =>
          have h2 := hk (chain.map Level.cards) 0 k hs
          have : ¬ k ≤ 1 := fun hle => (h2.mp hle) x hx hb
          simp only [if_neg this] at h
          cases h
    · exact h

/-- The same for models: a device in a subcircuit whose definition was found at the `k`-th place out
gets the model that is seen from there, if no place between has something to offer. -/
theorem model_lexical_partial (ci : Bool) (root : List (Card D)) (chain : List (Level D)) (body : List (Card D))
    (k : ℕ) (d : D) (m : Name) (free : ∀ l ∈ chain.take k, ∀ c, ¬ Offers ci l.cards d m c) (c : Card D) (w : Bool) :
    findModel ci root (expanded body :: chain) d m = .ok c w ↔
      findModel ci root (expanded body :: chain.drop k) d m = .ok c w := by
  have indep : ∀ (ss : List (List (Card D))) (i j : ℕ) (x : Card D),
      (scopes ci d m ss i).1 = some x ↔ (scopes ci d m ss j).1 = some x := fun ss i j x => by
    rw [scopes_some, scopes_some]
  have skip : ∀ (a b : List (List (Card D))), (∀ t ∈ a, ∀ x, ¬ Offers ci t d m x) → ∀ i j (x : Card D),
      (scopes ci d m (a ++ b) i).1 = some x ↔ (scopes ci d m b j).1 = some x := by
    intro a b
    induction a with
    | nil => intro _ i j x; exact indep b i j x
    | cons t a ih =>
      intro h i j x
      rw [List.cons_append]
      conv_lhs => unfold scopes
      cases ho : oneScope ci t d m i with
      | mk o i' =>
        cases o with
        | some y => exact absurd ((oneScope_some ci t d m i y).mp (by rw [ho])) (h t (by simp) y)
        | none => exact ih (fun u hu => h u (by simp [hu])) i' j x
  have split : chain.map Level.cards ++ [root] =
      (chain.take k).map Level.cards ++ ((chain.drop k).map Level.cards ++ [root]) := by
    rw [← List.append_assoc, ← List.map_append, List.take_append_drop]
  have key : Nearest ci root (expanded body :: chain) d m c ↔ Nearest ci root (expanded body :: chain.drop k) d m c := by
    unfold Nearest
    rw [← scopes_some ci d m c _ 0, ← scopes_some ci d m c _ 0, List.map_cons, List.map_cons, List.cons_append,
      List.cons_append]
    conv_lhs => unfold scopes
    conv_rhs => unfold scopes
    cases oneScope ci (expanded body).cards d m 0 with
    | mk o i =>
      cases o with
      | some y => exact Iff.rfl
      | none =>
        show (scopes ci d m (chain.map Level.cards ++ [root]) i).1 = some c ↔ _
        rw [split]
        refine skip _ _ (fun t ht x => ?_) i i c
        obtain ⟨l, hl, rfl⟩ := List.mem_map.mp ht
        exact free l hl x
  rw [model_found, model_found, key]

/-- With one in between it is that one's: the subcircuit `a` uses the model `d` of the root circuit, `b`
has its own `D` and uses `a`. -/
theorem model_captured :
    ∃ (root : List (Card Unit)) (abody bbody : List (Card Unit)),
      enter true root [] ['b'] = .ok [expanded bbody] ∧
      enter true root [expanded bbody] ['a'] = .ok [expanded abody, expanded bbody] ∧
      enter true root [] ['a'] = .ok [expanded abody] ∧
      findModel true root [expanded abody] () ['d'] = .ok (.model ['d'] fun _ => true) false ∧
      findModel true root [expanded abody, expanded bbody] () ['d'] = .ok (.model ['D'] fun _ => true) false :=
  ⟨[.model ['d'] fun _ => true, .proto ['a'] [.device ['d', '1']],
      .proto ['b'] [.model ['D'] fun _ => true, .inst ['x', '2'] ['a']], .inst ['x', '3'] ['b'], .inst ['x', '4'] ['a']],
    [.device ['d', '1']], [.model ['D'] fun _ => true, .inst ['x', '2'] ['a']], rfl, rfl, rfl, by
      rw [model_found]
      exact ⟨by simp, ⟨[[.device ['d', '1']]], _, [], rfl, Or.inl ⟨[], _, rfl, by decide +kernel, by simp⟩, by
        intro t ht x hx
        obtain rfl : t = [.device ['d', '1']] := by simpa using ht
        rcases hx with hx | ⟨-, k, h1, hx, ⟨l, v, rfl, -⟩, -⟩
        · exact absurd (by decide +kernel) (first_not hx)
        · obtain ⟨a, b, h, -, -⟩ := hx
          have : Card.model l v ∈ [Card.device ['d', '1']] := by rw [h]; simp
          simp at this⟩, _, _, rfl, by simp⟩, by
      rw [model_found]
      exact ⟨by simp, ⟨[[.device ['d', '1']]], _, [_], rfl, Or.inl ⟨[], _, rfl, by decide +kernel, by simp⟩, by
        intro t ht x hx
        obtain rfl : t = [.device ['d', '1']] := by simpa using ht
        rcases hx with hx | ⟨-, k, h1, hx, ⟨l, v, rfl, -⟩, -⟩
        · exact absurd (by decide +kernel) (first_not hx)
        · obtain ⟨a, b, h, -, -⟩ := hx
          have : Card.model l v ∈ [Card.device ['d', '1']] := by rw [h]; simp
          simp at this⟩, _, _, rfl, by simp⟩⟩

/-! ## The copy an instance gets -/

/-- Inside an instance a model of the definition is found under its name, even behind a definition or a
comment of that name: those are not in the copy. -/
theorem in_copy (ci : Bool) (root a b : List (Card D)) (chain : List (Level D)) (l : Name) (v : D → Bool) (d : D)
    (m : Name) (hm : m ≠ []) (hl : Bears ci m (Card.model l v))
    (ha : ∀ x ∈ a, Bears ci m x → (∃ n body, x = .proto n body) ∨ ∃ n, x = .other n) :
    findModel ci root (expanded (a ++ .model l v :: b) :: chain) d m = .ok (.model l v) (!v d) := by
  rw [model_found]
  refine ⟨hm, ⟨[], ((a ++ .model l v :: b).filter Card.copied), chain.map Level.cards ++ [root], rfl,
    Or.inl ⟨a.filter Card.copied, b.filter Card.copied, ?_, hl, ?_⟩, by simp⟩, l, v, rfl, by simp⟩
  · rw [List.filter_append, List.filter_cons]
    simp [Card.copied]
  · intro x hx hb
    obtain ⟨hxa, hc⟩ := List.mem_filter.mp hx
    rcases ha x hxa hb with ⟨n, body, rfl⟩ | ⟨n, rfl⟩ <;> simp [Card.copied] at hc

/-- Behind a device of that name it is not: the device is found, and that is an error, even where the
device is the very one that asks. -/
theorem device_hides (ci : Bool) (root a b : List (Card D)) (chain : List (Level D)) (n : Name) (d : D)
    (m : Name) (hm : m ≠ []) (hn : Bears ci m (Card.device n : Card D))
    (ha : ∀ x ∈ a, ¬ Bears ci m x) :
    findModel ci root (expanded (a ++ .device n :: b) :: chain) d m = .mismatch := by
  rw [model_mismatch]
  refine ⟨hm, .device n, ⟨[], ((a ++ .device n :: b).filter Card.copied), chain.map Level.cards ++ [root], rfl,
    Or.inl ⟨a.filter Card.copied, b.filter Card.copied, ?_, hn, ?_⟩, by simp⟩, ?_⟩
  · rw [List.filter_append, List.filter_cons]
    simp [Card.copied]
  · intro x hx hb
    exact ha x (List.mem_filter.mp hx).1 hb
  · rintro ⟨l, v, h⟩; cases h

/-! ## Bins of MOS models -/

/-- A device fits limits when it is inside them, the ends included; a limit that is not given is zero
below and none above. -/
theorem limits_meant (r : Limits) (L W : ℚ) : r.test (L, W) = true ↔
    ((∀ x, r.lmin = some x → x ≤ L) ∧ (r.lmin = none → 0 ≤ L) ∧ (∀ x, r.lmax = some x → L ≤ x)) ∧
    ((∀ x, r.wmin = some x → x ≤ W) ∧ (r.wmin = none → 0 ≤ W) ∧ (∀ x, r.wmax = some x → W ≤ x)) := by
  obtain ⟨a, b, c, e⟩ := r
  unfold Limits.test
  cases a <;> cases b <;> cases c <;> cases e <;> simp <;> tauto

/-- Models `m.1` to `m.n` in the root list, none called `m`: a device anywhere below that no subcircuit on
the way offers something gets the lowest numbered one that it fits. -/
theorem mos_bin (ci : Bool) (root : List (Card (ℚ × ℚ))) (chain : List (Level (ℚ × ℚ))) (m : Name) (hm : m ≠ [])
    (n : ℕ) (lab : ℕ → Name) (r : ℕ → Limits) (d : ℚ × ℚ) (k : ℕ)
    (inner : ∀ l ∈ chain, ∀ x ∈ l.cards, ¬ Bears ci m x ∧ ¬ Bears ci (binText m 1) x)
    (plain : ∀ x ∈ root, ¬ Bears ci m x)
    (there : ∀ j, 1 ≤ j → j ≤ n → First ci root (binText m j) (.model (lab j) (r j).test))
    (h1 : 1 ≤ k) (hn : k ≤ n) (fits : (r k).test d = true) (least : ∀ j, 1 ≤ j → j < k → (r j).test d = false) :
    findModel ci root chain d m = .ok (.model (lab k) (r k).test) false := by
  rw [model_found]
  refine ⟨hm, ⟨chain.map Level.cards, root, [], rfl, Or.inr ⟨plain, k, h1, there k h1 hn,
    ⟨_, _, rfl, fits⟩, fun j hj1 hj2 => ⟨_, there j hj1 (by omega), ?_⟩⟩, ?_⟩, _, _, rfl, by simp [fits]⟩
  · rintro ⟨l, v, h, hv⟩
    injection h with h3 h4
    subst h4
    rw [least j hj1 hj2] at hv
    cases hv
  · intro t ht x hx
    obtain ⟨l, hl, rfl⟩ := List.mem_map.mp ht
    rcases hx with hx | ⟨-, k', hk', hf, -, hj⟩
    · exact absurd (fun y hy => (inner l hl y hy).1) (first_not hx)
    · by_cases h : k' = 1
      · subst h
        exact absurd (fun y hy => (inner l hl y hy).2) (first_not hf)
      · obtain ⟨c', hc', -⟩ := hj 1 (le_refl _) (by omega)
        exact absurd (fun y hy => (inner l hl y hy).2) (first_not hc')

/-- A gap in the numbers ends the search: `m.3` without `m.2` is never found. -/
theorem gap (ci : Bool) (root : List (Card D)) (chain : List (Level D)) (d : D) (m : Name) (g : ℕ) (hg : 1 ≤ g)
    (hm : m ≠ [])
    (plain : ∀ s ∈ chain.map Level.cards ++ [root], ∀ x ∈ s, ¬ Bears ci m x)
    (hole : ∀ s ∈ chain.map Level.cards ++ [root], ∀ x ∈ s, ¬ Bears ci (binText m g) x)
    (unfit : ∀ s ∈ chain.map Level.cards ++ [root], ∀ j, 1 ≤ j → j < g → ∀ c, First ci s (binText m j) c →
      ¬ ∃ l v, c = .model l v ∧ v d = true) :
    findModel ci root chain d m = .cantFind ∨ findModel ci root chain d m = .noBins := by
  rw [model_none ci root chain d m hm]
  intro s hs c hc
  rcases hc with hc | ⟨-, k, hk, hf, hv, hj⟩
  · exact absurd (plain s hs) (first_not hc)
  · rcases lt_trichotomy k g with h | rfl | h
    · exact unfit s hs k hk h c hf hv
    · exact absurd (hole s hs) (first_not hf)
    · obtain ⟨c', hc', -⟩ := hj g hg h
      exact absurd (hole s hs) (first_not hc')

/-! ## Cases -/

/-- Models by length: `n.1` from 1 to 2, `n.2` from 2 to 5; `n.4` from 5 on. -/
def fam : List (Card (ℚ × ℚ)) :=
  [.model ['n', '.', '1'] (Limits.mk (some 1) (some 2) none none).test,
   .model ['N', '.', '2'] (Limits.mk (some 2) (some 5) none none).test,
   .model ['n', '.', '4'] (Limits.mk (some 5) none none none).test]

/-- A device of length 2 is on the edge of two bins: it gets the first of them. -/
example : findModel true fam [] (2, 1) ['n'] = .ok (.model ['n', '.', '1'] (Limits.mk (some 1) (some 2) none none).test) false := by
  refine mos_bin true fam [] ['n'] (by simp) 2 (fun j => if j = 1 then ['n', '.', '1'] else ['N', '.', '2'])
    (fun j => if j = 1 then ⟨some 1, some 2, none, none⟩ else ⟨some 2, some 5, none, none⟩) (2, 1) 1 (by simp)
    (by decide +kernel) ?_ (le_refl _) (by omega) (by decide +kernel) (fun j h1 h2 => absurd h2 (by omega))
  intro j h1 h2
  have hj : j = 1 ∨ j = 2 := by omega
  rcases hj with rfl | rfl
  · exact ⟨[], fam.tail, rfl, by decide +kernel, by simp⟩
  · exact ⟨[.model ['n', '.', '1'] (Limits.mk (some 1) (some 2) none none).test],
      [.model ['n', '.', '4'] (Limits.mk (some 5) none none none).test], rfl, by decide +kernel, by decide +kernel⟩

/-- A device of length 6 would fit `n.4`, behind the gap: "no bins match". -/
example : findModel true fam [] (6, 1) ['n'] = .noBins := by
  rw [no_bins true fam [] (6, 1) ['n'] (by simp)]
  refine ⟨(model_none true fam [] (6, 1) ['n'] (by simp)).mp
    (gap true fam [] (6, 1) ['n'] 3 (by omega) (by simp) (by decide +kernel) (by decide +kernel) ?_), _,
    List.mem_cons_self, by decide +kernel⟩
  intro s hs j h1 h2 c hc
  obtain rfl : s = fam := by simpa using hs
  rintro ⟨l, v, rfl, hv⟩
  have hj : j = 1 ∨ j = 2 := by omega
  rcases hj with rfl | rfl
  · have := first_unique hc ⟨[], fam.tail, rfl, by decide +kernel, by simp⟩
    injection this with h3 h4
    subst h4
    exact absurd hv (by decide +kernel)
  · have := first_unique hc ⟨[.model ['n', '.', '1'] (Limits.mk (some 1) (some 2) none none).test],
      [.model ['n', '.', '4'] (Limits.mk (some 5) none none none).test], rfl, by decide +kernel, by decide +kernel⟩
    injection this with h3 h4
    subst h4
    exact absurd hv (by decide +kernel)

/-- The same bins inside a subcircuit: now the same device is told that it "can't find" the model,
although there are bins and none matches. -/
theorem wrong_message : findModel true [] [expanded fam] (6, 1) ['n'] = .cantFind := by
  have none : ∀ s ∈ [expanded fam].map Level.cards ++ [[]], ∀ c, ¬ Offers true s ((6 : ℚ), (1 : ℚ)) ['n'] c := by
    intro s hs c hc
    have hs' : s = fam ∨ s = [] := by
      have : fam.filter Card.copied = fam := rfl
      simpa [expanded, this] using hs
    rcases hs' with rfl | rfl
    · have := (model_none true fam [] (6, 1) ['n'] (by simp)).mp (gap true fam [] (6, 1) ['n'] 3 (by omega) (by simp)
        (by decide +kernel) (by decide +kernel) ?_)
      · exact this fam (by simp) c hc
      · intro s hs j h1 h2 c hc
        obtain rfl : s = fam := by simpa using hs
        rintro ⟨l, v, rfl, hv⟩
        have hj : j = 1 ∨ j = 2 := by omega
        rcases hj with rfl | rfl
        · have := first_unique hc ⟨[], fam.tail, rfl, by decide +kernel, by simp⟩
          injection this with h3 h4
          subst h4
          exact absurd hv (by decide +kernel)
        · have := first_unique hc ⟨[.model ['n', '.', '1'] (Limits.mk (some 1) (some 2) none none).test],
            [.model ['n', '.', '4'] (Limits.mk (some 5) none none none).test], rfl, by decide +kernel, by decide +kernel⟩
          injection this with h3 h4
          subst h4
          exact absurd hv (by decide +kernel)
    · rcases hc with hc | ⟨-, k, -, hc, -⟩
      · exact absurd (by simp) (first_not hc)
      · exact absurd (by simp) (first_not hc)
  rcases (model_none true [] [expanded fam] (6, 1) ['n'] (by simp)).mpr none with h | h
  · exact h
  · rw [no_bins true [] [expanded fam] (6, 1) ['n'] (by simp)] at h
    obtain ⟨-, x, hx, -⟩ := h
    cases hx

/-- `d1 1 0 d1` with `.model d1 d` after it, at the root: the device finds itself. -/
example : findModel true [.device ['d', '1'], .model ['d', '1'] (fun _ : Unit => true)] [] () ['d', '1'] = .mismatch := rfl
/-- the other way round it is found -/
example : findModel true [.model ['d', '1'] (fun _ : Unit => true), .device ['d', '1']] [] () ['D', '1'] =
    .ok (.model ['d', '1'] fun _ => true) false := rfl
/-- a plain model that does not fit: "using anyway" -/
example : findModel true [.model ['n'] (Limits.mk (some 1) none none none).test] [] (1/2, 1) ['n'] =
    .ok (.model ['n'] (Limits.mk (some 1) none none none).test) true := by
  rw [model_found]
  refine ⟨by simp, ⟨[], _, [], rfl, Or.inl ⟨[], [], rfl, by decide +kernel, by simp⟩, by simp⟩, _, _, rfl, ?_⟩
  have : (Limits.mk (some 1) none none none).test ((1/2 : ℚ), (1 : ℚ)) = false := by decide +kernel
  simp [this]

end Gnucap.Find
