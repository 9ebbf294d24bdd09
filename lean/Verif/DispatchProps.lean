import Verif.DispatchModel
import Mathlib.Data.List.Induction
import Mathlib.Tactic.Common

/-!
# The plugin registry: nothing is lost or mixed up (C48)
-/
set_option linter.unusedSectionVars false
namespace Gnucap.Dispatch

variable {P : Type _} [DecidableEq P]

theorem keys_ne (s : List Char) : keys s ≠ [] := by
  cases s with
  | nil => simp [keys]
  | cons c s => unfold keys; split; · simp
                · split <;> simp

/-- **the keys are the parts between the bars**: joined with bars they give the text back, and none contains a bar -/
theorem keys_spec (s : List Char) : List.intercalate ['|'] (keys s) = s ∧ ∀ k ∈ keys s, '|' ∉ k := by
  induction s with
  | nil => simp [keys, List.intercalate]
  | cons c s ih =>
    unfold keys
    split
    · rename_i hc
      subst hc
      refine ⟨?_, ?_⟩
      · cases hk : keys s with
        | nil => exact absurd hk (keys_ne s)
        | cons k ks =>
          rw [hk] at ih
          have := ih.1
          rw [List.intercalate_cons_cons, this]; rfl
      · intro k hk
        rcases List.mem_cons.mp hk with rfl | hk
        · simp
        · exact ih.2 k hk
    · rename_i hc
      cases hk : keys s with
      | nil =>
        rw [hk] at ih
        have : s = [] := by simpa [List.intercalate] using ih.1.symm
        subst this
        simp [List.intercalate, Ne.symm hc]
      | cons k ks =>
        rw [hk] at ih
        refine ⟨?_, ?_⟩
        · have := ih.1
          cases ks with
          | nil => simp [List.intercalate] at this ⊢; exact this
          | cons k' ks =>
            rw [List.intercalate_cons_cons] at this ⊢
            rw [List.append_assoc] at this ⊢
            rw [List.cons_append, this]
        · intro x hx
          rcases List.mem_cons.mp hx with rfl | hx
          · simp only [List.mem_cons, not_or]
            exact ⟨Ne.symm hc, ih.2 k (by simp)⟩
          · exact ih.2 x (by simp [hx])

theorem find_put (m : Map P) (n k : Name) (v : Option P) : find (put m n v) k = if k = n then v else find m k := by
  induction m with
  | nil => simp only [put, find, eq_comm]
  | cons e m ih =>
    obtain ⟨a, w⟩ := e
    unfold put
    split
    · rename_i h; subst h
      simp only [find, eq_comm]
      split <;> rfl
    · rename_i h
      simp only [find]
      split
      · rename_i h2; subst h2; rw [if_neg h]
      · exact ih

theorem find_uninstall (p : P) (m : Map P) (n : Name) :
    find (uninstall p m) n = if find m n = some p then none else find m n := by
  induction m with
  | nil => rfl
  | cons e m ih =>
    obtain ⟨a, w⟩ := e
    unfold uninstall at ih ⊢
    simp only [List.map_cons]
    by_cases hw : w = some p
    · rw [if_pos hw]
      simp only [find]
      split
      · rfl
      · exact ih
    · rw [if_neg hw]
      simp only [find]
      split
      · rfl
      · exact ih

theorem stash_ne (n : Name) (i : ℕ) : stash n i ≠ n := by
  intro h
  have := congrArg List.length h
  simp [stash] at this

theorem freeIndex_free (m : Map P) (n : Name) : find m (stash n (freeIndex m n)) = none := Nat.find_spec (stash_free m n)

theorem install1_self (p : P) (m : Map P) (n : Name) : find (install1 p m n) n = some p := by
  unfold install1
  split_ifs <;> simp [find_put]

theorem install1_other (p q : P) (m : Map P) (n k : Name) (hk : k ≠ n) (h : find m k = some q) :
    find (install1 p m n) k = some q := by
  unfold install1
  split_ifs
  · simp [find_put, hk, h]
  · rw [find_put, if_neg hk, find_put]
    split
    · rename_i hs
      rw [hs, freeIndex_free] at h; cases h
    · exact h
  · simp [find_put, hk, h]

theorem install1_stash (p q : P) (m : Map P) (n : Name) (hn : n ≠ []) (h : find m n = some q) :
    ∃ i, find (install1 p m n) (stash n i) = some q := by
  refine ⟨freeIndex m n, ?_⟩
  unfold install1
  rw [if_neg hn, if_pos (by rw [h]; simp), find_put, if_neg (stash_ne n _), find_put, if_pos rfl, h]

theorem install1_only (p q : P) (m : Map P) (n k : Name) (h : find (install1 p m n) k = some q) :
    (k = n ∧ q = p) ∨ find m k = some q ∨ ∃ i, k = stash n i ∧ find m n = some q := by
  unfold install1 at h
  split_ifs at h
  · rw [find_put] at h
    split at h
    · left; rename_i hk; exact ⟨hk, by simpa using h.symm⟩
    · right; left; exact h
  · rw [find_put] at h
    split at h
    · left; rename_i hk; exact ⟨hk, by simpa using h.symm⟩
    · rw [find_put] at h
      split at h
      · right; right; rename_i hk; exact ⟨_, hk, h⟩
      · right; left; exact h
  · rw [find_put] at h
    split at h
    · left; rename_i hk; exact ⟨hk, by simpa using h.symm⟩
    · right; left; exact h

/-- A name with possibly a tail that begins with a colon. -/
def Derived (n k : Name) : Prop := ∃ t, k = n ++ t ∧ (t = [] ∨ t.head? = some ':')

theorem Derived.refl (n : Name) : Derived n n := ⟨[], by simp, Or.inl rfl⟩

theorem Derived.stash {n k : Name} (h : Derived n k) (i : ℕ) : Derived n (stash k i) := by
  obtain ⟨t, rfl, ht⟩ := h
  refine ⟨t ++ ':' :: Nat.toDigits 10 i, by simp [Dispatch.stash], Or.inr ?_⟩
  rcases ht with rfl | ht
  · rfl
  · cases t with
    | nil => cases ht
    | cons c t => simpa using ht

/-- **C48**: after `install`, every one of the alternative names gives the plugin. -/
theorem install_finds (s : List Char) (p : P) (m : Map P) (n : Name) (hn : n ∈ keys s) : find (install s p m) n = some p := by
  unfold install
  have gen : ∀ (l : List Name) (m : Map P), n ∈ l ∨ find m n = some p → find (l.foldl (install1 p) m) n = some p := by
    intro l
    induction l with
    | nil => intro m h; rcases h with h | h
             · cases h
             · exact h
    | cons k l ih =>
      intro m h
      rw [List.foldl_cons]
      apply ih
      by_cases hk : n = k
      · right; subst hk; exact install1_self p m n
      · rcases h with h | h
        · rcases List.mem_cons.mp h with h | h
          · exact absurd h hk
          · left; exact h
        · right; exact install1_other p p m k n hk h
  exact gen _ m (Or.inl hn)

/-- **C48**: `install` changes no other name that is in use. -/
theorem install_keeps (s : List Char) (p q : P) (m : Map P) (n : Name) (hn : n ∉ keys s) (h : find m n = some q) :
    find (install s p m) n = some q := by
  unfold install
  have gen : ∀ (l : List Name) (m : Map P), n ∉ l → find m n = some q → find (l.foldl (install1 p) m) n = some q := by
    intro l
    induction l with
    | nil => intro m _ h; exact h
    | cons k l ih =>
      intro m hnl h
      rw [List.foldl_cons]
      simp only [List.mem_cons, not_or] at hnl
      exact ih _ hnl.2 (install1_other p q m k n hnl.1 h)
  exact gen _ m hn h

/-- **C48**: a plugin that is replaced stays reachable under a name derived from its own. -/
theorem install_reachable_partial (s : List Char) (p q : P) (m : Map P) (n k : Name) (hn : n ≠ []) (hk : Derived n k) (h : find m k = some q) :
    ∃ k', Derived n k' ∧ find (install s p m) k' = some q := by
  unfold install
  generalize keys s = l
  induction l generalizing m k with
  | nil => exact ⟨k, hk, h⟩
  | cons a l ih =>
    rw [List.foldl_cons]
    by_cases ha : k = a
    · subst ha
      have hk0 : k ≠ [] := by
        obtain ⟨t, e, _⟩ := hk
        intro h0
        rw [h0] at e
        have := List.append_eq_nil_iff.mp e.symm
        exact hn this.1
      obtain ⟨i, hi⟩ := install1_stash p q m k hk0 h
      exact ih _ _ (hk.stash i) hi
    · exact ih _ _ hk (install1_other p q m a k ha h)

/-- **the empty name is not ignored**, and what was there is lost -/
theorem empty_name_wrong (p q : P) (hpq : p ≠ q) :
    find (install ['a', '|'] p []) [] = some p ∧
    ∀ k, find (install ['b', '|'] q (install ['|'] p [])) k ≠ some p := by
  have e : install ['b', '|'] q (install ['|'] p []) = [(([] : Name), some q), (['b'], some q)] := by
    simp only [install, keys, if_true, if_neg (show ¬ 'b' = '|' by decide), List.foldl_cons, List.foldl_nil, install1, put, find,
      reduceCtorEq, if_false, ne_eq, not_true_eq_false]
  have e2 : find (install ['a', '|'] p []) [] = some p := install_finds _ _ _ _ (by decide)
  refine ⟨e2, fun k => ?_⟩
  rw [e]
  simp only [find]
  split_ifs
  · simpa using hpq.symm
  · simpa using hpq.symm
  · simp

/-- **C48**: looking up changes no answer. -/
theorem lookup_neutral (ci : Bool) (s : Name) (m : Map P) (n : Name) : find (lookup ci s m).1 n = find m n := by
  have ht : ∀ (m : Map P) k n, find (touch m k) n = find m n := by
    intro m k n
    unfold touch
    rw [find_put]
    split
    · rename_i h; rw [h]
    · rfl
  unfold lookup
  cases find m s with
  | some p => exact ht m s n
  | none =>
    cases ci with
    | false => exact ht m s n
    | true => simp only [if_true]; rw [ht, ht]

/-- what a lookup answers -/
theorem lookup_answer (ci : Bool) (s : Name) (m : Map P) :
    (lookup ci s m).2 = if find m s = none ∧ ci = true then find m (Gnucap.Sim.toLower s) else find m s := by
  have ht : ∀ (m : Map P) k n, find (touch m k) n = find m n := by
    intro m k n
    unfold touch
    rw [find_put]
    split
    · rename_i h; rw [h]
    · rfl
  unfold lookup
  cases h : find m s with
  | some p => simp
  | none =>
    cases ci with
    | false => simp
    | true => simp [ht]

/-- **C48**: `uninstall` removes exactly that plugin, under all its names, and does not bring back a stashed one. -/
theorem uninstall_exact (p q : P) (m : Map P) (n : Name) : find (uninstall p m) n = some q ↔ find m n = some q ∧ q ≠ p := by
  rw [find_uninstall]
  split
  · rename_i h
    constructor
    · intro h2; cases h2
    · rintro ⟨h2, h3⟩; rw [h] at h2; simp at h2; exact absurd h2.symm h3
  · rename_i h
    constructor
    · intro h2; exact ⟨h2, fun e => h (by rw [h2, e])⟩
    · exact fun h2 => h2.1

/-- the operation takes the name away from, or changes, what is under it -/
def Disturbs (n : Name) (p : P) : Op P → Prop
  | .install s _ => n ∈ keys s
  | .uninstall q => q = p
  | .lookup _ _ => False

/-- **C48, histories**: whatever went before, a plugin is found under each of its names until the name is installed again or the
plugin is uninstalled. -/
theorem history_found (pre post : List (Op P)) (s : List Char) (p : P) (m : Map P) (n : Name) (hn : n ∈ keys s)
    (hpost : ∀ op ∈ post, ¬ Disturbs n p op) : find (run (pre ++ .install s p :: post) m) n = some p := by
  unfold run
  rw [List.foldl_append, List.foldl_cons]
  have h0 : find (step (pre.foldl step m) (.install s p)) n = some p := install_finds s p _ n hn
  generalize step (pre.foldl step m) (.install s p) = m0 at h0
  clear hn
  induction post generalizing m0 with
  | nil => exact h0
  | cons op post ih =>
    rw [List.foldl_cons]
    refine ih (fun o ho => hpost o (by simp [ho])) _ ?_
    have hd := hpost op (by simp)
    cases op with
    | install s' p' => exact install_keeps s' p' p m0 n hd h0
    | uninstall q => exact (uninstall_exact q p m0 n).mpr ⟨h0, fun e => hd e.symm⟩
    | lookup ci t => exact (lookup_neutral ci t m0 n).trans h0

/-- **C48, histories**: until it is uninstalled a plugin installed under a non-empty name stays reachable. -/
theorem history_reachable_partial (pre post : List (Op P)) (s : List Char) (p : P) (m : Map P) (n : Name) (hn : n ∈ keys s) (hne : n ≠ [])
    (hpost : Op.uninstall p ∉ post) : ∃ k, Derived n k ∧ find (run (pre ++ .install s p :: post) m) k = some p := by
  unfold run
  rw [List.foldl_append, List.foldl_cons]
  have h0 : ∃ k, Derived n k ∧ find (step (pre.foldl step m) (.install s p)) k = some p := ⟨n, .refl n, install_finds s p _ n hn⟩
  generalize step (pre.foldl step m) (.install s p) = m0 at h0
  clear hn
  induction post generalizing m0 with
  | nil => exact h0
  | cons op post ih =>
    rw [List.foldl_cons]
    obtain ⟨k, hk, h0⟩ := h0
    refine ih (fun h => hpost (by simp [h])) _ ?_
    cases op with
    | install s' p' => exact install_reachable_partial s' p' p m0 n k hne hk h0
    | uninstall q =>
      refine ⟨k, hk, (uninstall_exact q p m0 k).mpr ⟨h0, fun e => hpost (by simp [e])⟩⟩
    | lookup ci t => exact ⟨k, hk, (lookup_neutral ci t m0 k).trans h0⟩

/-- **C48, histories**: what is found was installed, under that name or one it derives from, and not uninstalled since. -/
theorem history_only (ops : List (Op P)) (k : Name) (p : P) (h : find (run ops []) k = some p) :
    ∃ pre s post, ops = pre ++ .install s p :: post ∧ Op.uninstall p ∉ post ∧ ∃ n ∈ keys s, Derived n k := by
  unfold run at h
  induction ops using List.reverseRecOn generalizing k with
  | nil => simp [find] at h
  | append_singleton ops op ih =>
    rw [List.foldl_append, List.foldl_cons, List.foldl_nil] at h
    have keep : ∀ k, find (ops.foldl step []) k = some p → op ≠ .uninstall p →
        ∃ pre s post, ops ++ [op] = pre ++ .install s p :: post ∧ Op.uninstall p ∉ post ∧ ∃ n ∈ keys s, Derived n k := by
      intro k hk hop
      obtain ⟨pre, s, post, e, hnot, hder⟩ := ih k hk
      refine ⟨pre, s, post ++ [op], by rw [e]; simp, ?_, hder⟩
      simp only [List.mem_append, List.mem_singleton, not_or]
      exact ⟨hnot, Ne.symm hop⟩
    cases op with
    | uninstall q =>
      obtain ⟨h1, h2⟩ := (uninstall_exact q p _ k).mp h
      exact keep k h1 (by intro e; cases e; exact h2 rfl)
    | lookup ci t =>
      exact keep k ((lookup_neutral ci t _ k).symm.trans h) (by simp)
    | install s q =>
      -- every entry after the loop is the new plugin under a derived key, or an old plugin under a derived name
      have gen : ∀ (l : List Name) (m : Map P),
          (∀ k, find m k = some p →
            (p = q ∧ ∃ n ∈ keys s, Derived n k) ∨
            (∃ k0, find (ops.foldl step []) k0 = some p ∧ Derived k0 k)) →
          (∀ n ∈ l, n ∈ keys s) → find (l.foldl (install1 q) m) k = some p →
          (p = q ∧ ∃ n ∈ keys s, Derived n k) ∨ (∃ k0, find (ops.foldl step []) k0 = some p ∧ Derived k0 k) := by
        intro l
        induction l with
        | nil => intro m hm _ hk; exact hm k hk
        | cons a l ihl =>
          intro m hm hl hk
          rw [List.foldl_cons] at hk
          refine ihl _ ?_ (fun n hn => hl n (by simp [hn])) hk
          intro k' hk'
          rcases install1_only q p m a k' hk' with ⟨rfl, rfl⟩ | h | ⟨i, rfl, h⟩
          · exact Or.inl ⟨rfl, k', hl k' (by simp), .refl _⟩
          · exact hm k' h
          · rcases hm a h with ⟨e, n, hn, hd⟩ | ⟨k0, h0, hd⟩
            · exact Or.inl ⟨e, n, hn, hd.stash i⟩
            · exact Or.inr ⟨k0, h0, hd.stash i⟩
      rcases gen (keys s) _ (fun k hk => Or.inr ⟨k, hk, .refl k⟩) (fun n hn => hn) h with ⟨rfl, n, hn, hd⟩ | ⟨k0, h0, hd⟩
      · exact ⟨ops, s, [], rfl, by simp, n, hn, hd⟩
      · obtain ⟨pre, s', post, e, hnot, n, hn, hd'⟩ := keep k0 h0 (by simp)
        refine ⟨pre, s', post, e, hnot, n, hn, ?_⟩
        obtain ⟨t, rfl, ht⟩ := hd'
        obtain ⟨u, rfl, hu⟩ := hd
        refine ⟨t ++ u, by simp, ?_⟩
        rcases ht with rfl | ht
        · simpa using hu
        · right
          cases t with
          | nil => cases ht
          | cons c t => simpa using ht

example : find (run [.install "r|res".toList 1, .install "r".toList 2, .lookup true "R".toList, .uninstall 3] ([] : Map ℕ)) "res".toList = some 1 :=
  history_found [] [.install "r".toList 2, .lookup true "R".toList, .uninstall 3] "r|res".toList 1 [] "res".toList (by decide) (by
    intro op hop
    simp only [List.mem_cons, List.not_mem_nil, or_false] at hop
    rcases hop with rfl | rfl | rfl
    · show "res".toList ∉ keys "r".toList; decide
    · exact id
    · show ¬ (3 = 1); decide)

end Gnucap.Dispatch
