import Verif.ModelTypeModel
import Mathlib.Tactic.IntervalCases

/-!
# The type and level of a `.model` line choose the card, and its listing chooses it again (C110)
-/
namespace Gnucap.ModelType.Props

variable {P : Type _} [DecidableEq P]

/-- among the keys of a model, keys of one name set the same -/
def Coherent (ci : Bool) (l : Level P) : Prop := ∀ k ∈ l.pub ++ l.priv, ∀ k' ∈ l.pub ++ l.priv, same ci k.1 k'.1 = true → k.2 = k'.2

/-- model `m` is installed under all its public names -/
def Installed (r : Reg P) (m : ℕ) (l : Level P) : Prop := ∀ k ∈ l.pub, r.at_ k.1 = some m

theorem same_refl (ci : Bool) (a : Name) : same ci a a = true := by
  unfold same; split <;> simp

/-- C110: a card made from a line in any way is listed under a type that, read without a level, makes the same kind of card set to the same -/
theorem again (r : Reg P) (ci : Bool) (m : ℕ) (v : P) (l : Level P) (c : List (Level P)) (hc : r.chain m = l :: c) (hi : Installed r m l)
    (hk : Coherent ci l) (hv : ∃ k ∈ l.pub, k.2 = v) :
    ∃ t, devType v (r.chain m) = some t ∧ r.read ci t none = some (m, v) := by
  obtain ⟨k0, hk0, hv0⟩ := hv
  obtain ⟨k, hf⟩ : ∃ k, l.pub.find? (fun k => k.2 == v) = some k := by
    cases h : l.pub.find? (fun k => k.2 == v) with
    | some k => exact ⟨k, rfl⟩
    | none => exact absurd (by simpa using hv0) (List.find?_eq_none.mp h k0 hk0)
  have hm := List.mem_of_find?_eq_some hf
  have hkv : k.2 = v := by simpa using List.find?_some hf
  refine ⟨k.1, ?_, ?_⟩
  · rw [hc]
    simp only [devType, Level.keys, List.find?_append, hf, Option.some_or]
  · have hs : ∃ k', (l.keys.find? fun x => same ci k.1 x.1) = some k' ∧ k'.2 = v := by
      cases h : l.keys.find? (fun x => same ci k.1 x.1) with
      | none => exact absurd (same_refl ci k.1) (List.find?_eq_none.mp h k (List.mem_append_left _ hm))
      | some k' =>
        refine ⟨k', rfl, ?_⟩
        rw [← hkv]
        exact (hk k (List.mem_append_left _ hm) k' (List.mem_of_find?_eq_some h) (List.find?_some (p := fun x : Name × P => same ci k.1 x.1) h)).symm
    obtain ⟨k', h1, h2⟩ := hs
    simp only [Reg.read, Reg.look, baseName, hi k hm, hc, setType, h1, h2]

/-! ## the level -/

private theorem dig_nat {d : ℕ} (h : d < 10) : (dig d).toNat = 48 + d := by
  interval_cases d <;> rfl

/-- a text that does not begin with a digit -/
def NoDigit (s : List Char) : Prop := ∀ c, s.head? = some c → ¬ (48 ≤ c.toNat ∧ c.toNat ≤ 57)

private theorem digits_text (rest : List Char) (hr : NoDigit rest) : ∀ ds : List ℕ, (∀ d ∈ ds, d < 10) → digits (ds.map dig ++ rest) = ds
  | [], _ => by
    cases rest with
    | nil => rfl
    | cons c r => simp only [List.map_nil, List.nil_append, digits, if_neg (hr c rfl)]
  | d :: ds, h => by
    have hd := h d (by simp)
    have e := dig_nat hd
    simp only [List.map_cons, List.cons_append, digits, e]
    rw [if_pos (by omega), digits_text rest hr ds fun x hx => h x (by simp [hx])]
    simp

private theorem foldl_ofDigits (ds : List ℕ) : ds.foldl (fun v d => 10 * v + d) 0 = Nat.ofDigits 10 ds.reverse := by
  rw [Nat.ofDigits_eq_foldr, List.foldr_reverse]
  congr 1
  funext v d
  simp only [Nat.cast_id]
  omega

private theorem ctoi_digits (ds : List ℕ) (rest : List Char) (hr : NoDigit rest) (hne : ds ≠ []) (hd : ∀ d ∈ ds, d < 10) :
    ctoi (ds.map dig ++ rest) = (Nat.ofDigits 10 ds.reverse : ℕ) := by
  obtain ⟨d, l, rfl⟩ := List.exists_cons_of_ne_nil hne
  have e := dig_nat (hd d (by simp))
  have h1 : dig d ≠ '-' := fun h => by rw [h] at e; simp at e; omega
  have h2 : dig d ≠ '+' := fun h => by rw [h] at e; simp at e; omega
  rw [← foldl_ofDigits]
  have := digits_text rest hr (d :: l) hd
  have hb : blanks ((d :: l).map dig ++ rest) = (d :: l).map dig ++ rest := by
    have := hd d (by simp)
    rw [List.map_cons, List.cons_append, blanks, if_pos (by omega)]
  unfold ctoi
  rw [hb]
  unfold number
  split
  · rename_i h; simp only [List.map_cons, List.cons_append, List.cons.injEq] at h; exact absurd h.1 h1
  · rename_i h; simp only [List.map_cons, List.cons_append, List.cons.injEq] at h; exact absurd h.1 h2
  · rw [this]

private theorem zeros : ∀ k : ℕ, (List.replicate k 0).foldl (fun v d => 10 * v + d) 0 = 0
  | 0 => rfl
  | k + 1 => by rw [List.replicate_succ, List.foldl_cons]; exact zeros k

/-- C110: a level written as a number, with any zeros in front and anything behind, is put behind the type as it was written -/
theorem level_name (t : Name) (k : ℕ) (ds : List ℕ) (rest : List Char) (hr : NoDigit rest) (hne : ds ≠ []) (hd : ∀ d ∈ ds, d < 10)
    (h0 : ds.head? ≠ some 0) (hs : Nat.ofDigits 10 ds.reverse < 2147483648) :
    baseName t (some (List.replicate k '0' ++ ds.map dig ++ rest)) = t ++ ds.map dig := by
  have e0 : List.replicate k '0' ++ ds.map dig ++ rest = (List.replicate k 0 ++ ds).map dig ++ rest := by simp [dig]
  have hz : Nat.ofDigits 10 (List.replicate k 0 ++ ds).reverse = Nat.ofDigits 10 ds.reverse := by
    rw [← foldl_ofDigits, ← foldl_ofDigits, List.foldl_append]
    congr 1
    exact zeros k
  have hc := ctoi_digits (List.replicate k 0 ++ ds) rest hr (by simp [hne]) (by
    intro d h
    rcases List.mem_append.mp h with h | h
    · rw [List.eq_of_mem_replicate h]; omega
    · exact hd d h)
  rw [hz] at hc
  have hdig : Nat.digits 10 (Nat.ofDigits 10 ds.reverse) = ds.reverse := by
    refine Nat.digits_ofDigits 10 (by norm_num) _ (fun d h => hd d (List.mem_reverse.mp h)) fun h => ?_
    rw [List.getLast_reverse]
    intro h
    apply h0
    rw [List.head?_eq_some_head hne, h]
  have hpos : Nat.ofDigits 10 ds.reverse ≠ 0 := by
    intro h
    rw [h, Nat.digits_zero] at hdig
    exact hne (List.reverse_eq_nil_iff.mp hdig.symm)
  simp only [baseName, e0, hc, printU]
  rw [show ((Nat.ofDigits 10 ds.reverse : ℕ) : ℤ) % 4294967296 = ((Nat.ofDigits 10 ds.reverse : ℕ) : ℤ) by omega, Int.toNat_natCast, if_neg hpos, hdig,
    List.map_reverse, List.reverse_reverse]

/-! ## the models built in -/

/-- the public names of a model -/
def names (m : ℕ) : List Name := ((chains m).head?.map fun l => l.pub.map Prod.fst).getD []

private theorem at_range {t : Name} {m : ℕ} (h : builtIn.at_ t = some m) : m ∈ [1, 2, 3, 4, 5, 6, 7, 8, 9, 10] := by
  simp only [builtIn] at h
  exact List.mem_of_find?_eq_some h

private theorem look_range {ci : Bool} {t : Name} {m : ℕ} (h : builtIn.look ci t = some m) : m ∈ [1, 2, 3, 4, 5, 6, 7, 8, 9, 10] := by
  unfold Reg.look at h
  split at h
  · rename_i k hk; cases h; exact at_range hk
  · split at h
    · exact at_range h
    · cases h

/-- C110: of the mosfets, bipolar transistors and diodes built in, every card made by any type and level is made again by its listing -/
theorem builtin_again (ci : Bool) (t : Name) (level : Option (List Char)) (m : ℕ) (v : Pol) (h : builtIn.read ci t level = some (m, v)) :
    ∃ t', devType v (builtIn.chain m) = some t' ∧ builtIn.read ci t' none = some (m, v) := by
  unfold Reg.read at h
  split at h
  · cases h
  · rename_i k hk
    have hm := look_range hk
    cases h
    have tab : ∀ m ∈ [1, 2, 3, 4, 5, 6, 7, 8, 9, 10], ∃ l c, chains m = l :: c ∧ Installed builtIn m l ∧ Coherent ci l ∧
        (m ≠ 10 → ∀ v : Pol, ∃ k ∈ l.pub, k.2 = v) := by
      intro m hm
      have key : ∀ m ∈ [1, 2, 3, 4, 5, 6, 7, 8, 9, 10], ∃ l ∈ (chains m).head?, (∀ k ∈ l.pub, builtIn.at_ k.1 = some m) ∧
          (∀ ci : Bool, ∀ k ∈ l.pub ++ l.priv, ∀ k' ∈ l.pub ++ l.priv, same ci k.1 k'.1 = true → k.2 = k'.2) ∧
          (m ≠ 10 → (∃ k ∈ l.pub, k.2 = Pol.n) ∧ ∃ k ∈ l.pub, k.2 = Pol.p) := by decide +kernel
      obtain ⟨l, hl, h1, h2, h3⟩ := key m hm
      obtain ⟨c, hc⟩ := List.head?_eq_some_iff.mp hl
      exact ⟨l, c, hc, h1, h2 ci, fun h v => by cases v; exacts [(h3 h).1, (h3 h).2]⟩
    obtain ⟨l, c, hc, h1, h2, h3⟩ := tab m hm
    refine again builtIn ci m _ l c hc h1 h2 ?_
    by_cases h10 : m = 10
    · subst h10
      have hn : setType ci t Pol.n (chains 10) = Pol.n := by
        have e : chains 10 = [⟨[(['d'], .n)], [], true⟩] := by simp [chains]
        rw [e]
        simp only [setType, Level.keys, List.append_nil]
        split
        · rename_i k' hf
          have := List.mem_of_find?_eq_some hf
          rw [List.mem_singleton] at this
          rw [this]
        · rfl
      have hl : l = ⟨[(['d'], .n)], [], true⟩ := by
        have e : chains 10 = [⟨[(['d'], .n)], [], true⟩] := by simp [chains]
        rw [e] at hc
        exact (List.cons.inj hc).1.symm
      exact ⟨(['d'], .n), by rw [hl]; simp, hn.symm⟩
    · exact h3 h10 _

/-- the type of a mosfet of a polarity -/
def mosType : Pol → Name
  | .n => ['n', 'm', 'o', 's']
  | .p => ['p', 'm', 'o', 's']

/-- C110: `nmos` and `pmos` with a level from 1 to 8 make that mosfet, of that polarity, however the level is written -/
theorem mos_level (ci : Bool) (v : Pol) (k n : ℕ) (h1 : 1 ≤ n) (h8 : n ≤ 8) (rest : List Char) (hr : NoDigit rest) :
    builtIn.read ci (mosType v) (some (List.replicate k '0' ++ [dig n] ++ rest)) = some (n, v) := by
  have hb := level_name (mosType v) k [n] rest hr (by simp) (by simp; omega) (by simp; omega) (by simp; omega)
  have tab : ∀ ci : Bool, ∀ v ∈ [Pol.n, Pol.p], ∀ n ∈ [1, 2, 3, 4, 5, 6, 7, 8], builtIn.read ci (mosType v ++ [dig n]) none = some (n, v) ∧
      builtIn.look ci (mosType v ++ [dig n]) = some n ∧ setType ci (mosType v) .n (chains n) = v := by decide +kernel
  have hv : v ∈ [Pol.n, Pol.p] := by cases v <;> simp
  have hn : n ∈ [1, 2, 3, 4, 5, 6, 7, 8] := by interval_cases n <;> simp
  obtain ⟨-, h, h'⟩ := tab ci v hv n hn
  simp only [List.map_cons, List.map_nil] at hb
  unfold Reg.read
  rw [hb, h]
  exact congrArg (fun x => some (n, x)) h'

/-- C110: without a level they make the mosfet of level 1 -/
theorem mos_plain (ci : Bool) (v : Pol) : builtIn.read ci (mosType v) none = some (1, v) := by
  revert ci; cases v <;> decide +kernel

/-- the type of a bipolar transistor of a polarity -/
def bjtType : Pol → Name
  | .n => ['n', 'p', 'n']
  | .p => ['p', 'n', 'p']

/-- C110: `npn` and `pnp`, without a level, with level 1, or with the 1 behind the type, make the bipolar transistor of that polarity -/
theorem bjt_level (ci : Bool) (v : Pol) (k : ℕ) (rest : List Char) (hr : NoDigit rest) :
    builtIn.read ci (bjtType v) none = some (9, v) ∧ builtIn.read ci (bjtType v ++ ['1']) none = some (9, v) ∧
      builtIn.read ci (bjtType v) (some (List.replicate k '0' ++ ['1'] ++ rest)) = some (9, v) := by
  have tab : ∀ ci : Bool, ∀ v ∈ [Pol.n, Pol.p], builtIn.read ci (bjtType v) none = some (9, v) ∧ builtIn.read ci (bjtType v ++ ['1']) none = some (9, v) ∧
      builtIn.look ci (bjtType v ++ ['1']) = some 9 ∧ setType ci (bjtType v) .n (chains 9) = v := by decide +kernel
  obtain ⟨h1, h2, h3, h4⟩ := tab ci v (by cases v <;> simp)
  refine ⟨h1, h2, ?_⟩
  have hb : baseName (bjtType v) (some (List.replicate k '0' ++ ['1'] ++ rest)) = bjtType v ++ ['1'] :=
    level_name (bjtType v) k [1] rest hr (by simp) (by simp) (by simp) (by simp)
  unfold Reg.read
  rw [hb, h3]
  exact congrArg (fun x => some (9, x)) h4

omit [DecidableEq P] in
/-- C110: a model that hides its base takes no type from it: a type that is none of its own keys leaves the card as a new one is -/
theorem hidden (r : Reg P) (ci : Bool) (t : Name) (level : Option (List Char)) (m : ℕ) (l : Level P) (c : List (Level P)) (hc : r.chain m = l :: c)
    (hh : l.hide = true) (hi : r.at_ (baseName t level) = some m) (hn : ∀ k ∈ l.pub ++ l.priv, same ci t k.1 = false) :
    r.read ci t level = some (m, r.new m) := by
  have hf : l.keys.find? (fun k => same ci t k.1) = none := List.find?_eq_none.mpr fun k hk => by rw [hn k hk]; simp
  simp only [Reg.read, Reg.look, hi, hc, setType, hf, hh, if_true]

/-! ### letters -/

private theorem at_names {t : Name} {m : ℕ} (h : builtIn.at_ t = some m) : ∃ l ∈ (chains m).head?, ∃ k ∈ l.pub, k.1 = t := by
  have h' := h
  simp only [builtIn] at h'
  have hp := List.find?_some h'
  cases hc : chains m with
  | nil => rw [hc] at hp; cases hp
  | cons l c =>
    rw [hc] at hp
    obtain ⟨k, hk, e⟩ := List.mem_map.mp (List.contains_iff_mem.mp hp)
    exact ⟨l, rfl, k, hk, e⟩

private theorem at_lower {t : Name} {m : ℕ} (h : builtIn.at_ t = some m) : t.map Char.toLower = t ∧ t.length ≤ 6 := by
  have tab : ∀ m ∈ [1, 2, 3, 4, 5, 6, 7, 8, 9, 10], ∀ l ∈ (chains m).head?, ∀ k ∈ l.pub, k.1.map Char.toLower = k.1 ∧ k.1.length ≤ 6 := by decide +kernel
  obtain ⟨l, hl, k, hk, rfl⟩ := at_names h
  exact tab m (at_range h) l hl k hk

private theorem look_true (t : Name) : builtIn.look true t = builtIn.at_ (t.map Char.toLower) := by
  unfold Reg.look
  cases h : builtIn.at_ t with
  | none => rfl
  | some m => simp only; rw [(at_lower h).1, h]

private theorem set_case (t t' : Name) (h : t.map Char.toLower = t'.map Char.toLower) (v : Pol) : ∀ c : List (Level Pol), setType true t v c = setType true t' v c
  | [] => rfl
  | l :: c => by
    have e : (fun k : Name × Pol => same true t k.1) = fun k => same true t' k.1 := by
      funext k; simp only [same, if_true, h]
    simp only [setType, e, set_case t t' h v c]

/-- C110: with case ignored, types that differ only in it make the same card -/
theorem case_ignored (t t' : Name) (h : t.map Char.toLower = t'.map Char.toLower) (level : Option (List Char)) :
    builtIn.read true t level = builtIn.read true t' level := by
  have hb : (baseName t level).map Char.toLower = (baseName t' level).map Char.toLower := by
    cases level with
    | none => exact h
    | some s => simp only [baseName, List.map_append, h]
  unfold Reg.read
  rw [look_true, look_true, hb]
  cases builtIn.at_ ((baseName t' level).map Char.toLower) with
  | none => rfl
  | some m => exact congrArg (fun x => some (m, x)) (set_case t t' h _ _)

/-- C110: with case kept, a type with a capital letter is refused -/
theorem case_kept (t : Name) (h : t.map Char.toLower ≠ t) (level : Option (List Char)) : builtIn.read false t level = none := by
  have hl : builtIn.look false (baseName t level) = none := by
    unfold Reg.look
    cases hk : builtIn.at_ (baseName t level) with
    | none => rfl
    | some m =>
      refine absurd (at_lower hk).1 fun e => h ?_
      cases level with
      | none => exact e
      | some s =>
        simp only [baseName, List.map_append] at e
        exact (List.append_inj e (by simp)).1
  unfold Reg.read
  rw [hl]

/-! ### signs -/

/-- C110: a plus sign before the level changes nothing -/
theorem level_plus (t : Name) (d : ℕ) (hd : d < 10) (s : List Char) : baseName t (some ('+' :: dig d :: s)) = baseName t (some (dig d :: s)) := by
  have e := dig_nat hd
  have h1 : dig d ≠ '-' := fun h => by rw [h] at e; simp at e; omega
  have h2 : dig d ≠ '+' := fun h => by rw [h] at e; simp at e; omega
  have hb : blanks ('+' :: dig d :: s) = '+' :: dig d :: s := rfl
  have hb' : blanks (dig d :: s) = dig d :: s := by rw [blanks, if_pos (by omega)]
  have hn : number (dig d :: s) = ((digits (dig d :: s)).foldl (fun v d => 10 * v + d) 0 : ℕ) := by
    unfold number
    split
    · rename_i h; exact absurd (List.cons.inj h).1 h1
    · rename_i h; exact absurd (List.cons.inj h).1 h2
    · rfl
  simp only [baseName, ctoi, hb, hb', hn]
  rfl

/-- C110: a level below 0 is refused, whatever the type -/
theorem level_minus (ci : Bool) (t : Name) (ds : List ℕ) (rest : List Char) (hr : NoDigit rest) (hd : ∀ d ∈ ds, d < 10)
    (h0 : 0 < Nat.ofDigits 10 ds.reverse) (hs : Nat.ofDigits 10 ds.reverse ≤ 2147483648) : builtIn.read ci t (some ('-' :: (ds.map dig ++ rest))) = none := by
  have hc : ctoi ('-' :: (ds.map dig ++ rest)) = -((Nat.ofDigits 10 ds.reverse : ℕ) : ℤ) := by
    show -(((digits (ds.map dig ++ rest)).foldl (fun v d => 10 * v + d) 0 : ℕ) : ℤ) = _
    rw [digits_text rest hr ds hd, foldl_ofDigits]
  have hp : 10 ≤ (printU (ctoi ('-' :: (ds.map dig ++ rest)))).length := by
    rw [hc]
    generalize Nat.ofDigits 10 ds.reverse = n at h0 hs
    obtain ⟨k, hk, hk'⟩ : ∃ k : ℕ, (-(n : ℤ)) % 4294967296 = k ∧ 2147483648 ≤ k := ⟨((-(n : ℤ)) % 4294967296).toNat, by omega, by omega⟩
    simp only [printU, hk, Int.toNat_natCast]
    rw [if_neg (by omega), List.length_reverse, List.length_map]
    by_contra hlt
    have h1 : k < 10 ^ (Nat.digits 10 k).length := Nat.lt_base_pow_length_digits (by norm_num)
    have h2 : 10 ^ (Nat.digits 10 k).length ≤ 10 ^ 9 := Nat.pow_le_pow_right (by norm_num) (by omega)
    norm_num at h2
    omega
  have hl : builtIn.look ci (baseName t (some ('-' :: (ds.map dig ++ rest)))) = none := by
    have hne : ∀ u : Name, 10 ≤ u.length → builtIn.at_ u = none := by
      intro u hu
      cases h : builtIn.at_ u with
      | none => rfl
      | some m => have := (at_lower h).2; omega
    have hlen : 10 ≤ (baseName t (some ('-' :: (ds.map dig ++ rest)))).length := by
      simp only [baseName, List.length_append]; omega
    unfold Reg.look
    rw [hne _ hlen]
    simp only
    split
    · exact hne _ (by rw [List.length_map]; exact hlen)
    · rfl
  unfold Reg.read
  rw [hl]

/-! ## failures -/

/-- a text whose first character that is printed is no digit and no sign -/
def NoNumber (s : List Char) : Prop := ∀ c, (s.find? fun c => decide (33 ≤ c.toNat ∧ c.toNat ≤ 126)) = some c → ¬ (48 ≤ c.toNat ∧ c.toNat ≤ 57) ∧ c ≠ '-' ∧ c ≠ '+'

private theorem blanks_head : ∀ s : List Char, (blanks s).head? = s.find? fun c => decide (33 ≤ c.toNat ∧ c.toNat ≤ 126)
  | [] => rfl
  | c :: r => by
    unfold blanks
    by_cases h : 33 ≤ c.toNat ∧ c.toNat ≤ 126
    · rw [if_pos h, List.find?_cons_of_pos (by simpa using h)]; rfl
    · rw [if_neg h, List.find?_cons_of_neg (by simpa using h)]; exact blanks_head r

/-- C110 fails: a level that is no number, as the name of a parameter, is taken for 0, and the line is refused -/
theorem level_text (ci : Bool) (v : Pol) (s : List Char) (hs : NoNumber s) : builtIn.read ci (mosType v) (some s) = none := by
  have hc : ctoi s = 0 := by
    have hb : ∀ c, (blanks s).head? = some c → ¬ (48 ≤ c.toNat ∧ c.toNat ≤ 57) ∧ c ≠ '-' ∧ c ≠ '+' := fun c h => hs c (blanks_head s ▸ h)
    unfold ctoi
    generalize blanks s = b at hb
    have hd : digits b = [] := by
      have := digits_text b (fun c h => (hb c h).1) [] (by simp)
      simpa using this
    unfold number
    split
    · exact absurd rfl (hb '-' rfl).2.1
    · exact absurd rfl (hb '+' rfl).2.2
    · rw [hd]; rfl
  have hl : ∀ ci : Bool, ∀ v ∈ [Pol.n, Pol.p], builtIn.look ci (mosType v ++ printU 0) = none := by decide +kernel
  unfold Reg.read
  rw [baseName, hc, hl ci v (by cases v <;> simp)]

/-- C110 fails: a diode with a level, level 1 among them, is refused -/
theorem diode_level (ci : Bool) (s : List Char) : builtIn.read ci ['d'] (some s) = none := by
  have hp : ∀ z : ℤ, printU z ≠ [] := by
    intro z
    unfold printU
    simp only
    split
    · simp
    · rename_i h
      simpa only [ne_eq, List.reverse_eq_nil_iff, List.map_eq_nil_iff, Nat.digits_eq_nil_iff_eq_zero] using h
  have key : ∀ t : Name, t ≠ [] → builtIn.look ci ('d' :: t) = none := by
    intro t ht
    have h : ∀ t : Name, t ≠ [] → builtIn.at_ ('d' :: t) = none := by
      intro t ht
      refine List.find?_eq_none.mpr ?_
      intro m hm
      have tab : ∀ m ∈ [1, 2, 3, 4, 5, 6, 7, 8, 9, 10], ∀ l ∈ (chains m).head?, ∀ k ∈ l.pub, k.1.head? = some 'd' → k.1 = ['d'] := by decide +kernel
      cases hc : chains m with
      | nil => simp
      | cons l c =>
        simp only [Bool.not_eq_true]
        rw [Bool.eq_false_iff]
        intro hin
        obtain ⟨k, hk, e⟩ := List.mem_map.mp (List.contains_iff_mem.mp hin)
        have := tab m hm l (by rw [hc]; rfl) k hk (by rw [e]; rfl)
        rw [e] at this
        exact ht (List.cons.inj this).2
    unfold Reg.look
    rw [h t ht]
    simp only
    split
    · rw [List.map_cons]
      exact h _ (by simpa using ht)
    · rfl
  unfold Reg.read
  rw [baseName, List.singleton_append, key _ (hp _)]

/-- C110 fails: a type that ends in a level, with a level, is glued: `pmos4` with level 9 is the mosfet of level 8, of the other polarity -/
theorem glued_wrong (ci : Bool) : builtIn.read ci ['p', 'm', 'o', 's', '4'] (some ['9']) = some (8, .n) := by
  have h : ∀ ci : Bool, builtIn.look ci ['p', 'm', 'o', 's', '4', '9'] = some 8 ∧ setType ci ['p', 'm', 'o', 's', '4'] Pol.n (chains 8) = .n := by decide +kernel
  have hb := level_name ['p', 'm', 'o', 's', '4'] 0 [9] [] (by intro c h; cases h) (by simp) (by simp) (by simp) (by simp)
  have e : baseName ['p', 'm', 'o', 's', '4'] (some ['9']) = ['p', 'm', 'o', 's', '4', '9'] := hb
  unfold Reg.read
  rw [e, (h ci).1]
  exact congrArg (fun x => some (8, x)) (h ci).2

/-! ## examples -/

/-- `again` at work: `pmos49`, listed as `pmos8` -/
example : Installed builtIn 8 (mos (mosNames 8)) ∧ Coherent true (mos (mosNames 8)) ∧ (∃ k ∈ (mos (mosNames 8)).pub, k.2 = Pol.p) ∧
    devType Pol.p (builtIn.chain 8) = some ['p', 'm', 'o', 's', '8'] := by
  refine ⟨?_, ?_, ?_, ?_⟩
  · unfold Installed; decide +kernel
  · unfold Coherent; decide +kernel
  · decide +kernel
  · decide +kernel

/-- `level_name` at work: `level=0049)` -/
example : baseName ['n', 'm', 'o', 's'] (some ['0', '0', '4', '9', ')']) = ['n', 'm', 'o', 's', '4', '9'] :=
  level_name ['n', 'm', 'o', 's'] 2 [4, 9] [')'] (by intro c h; cases h; decide) (by simp) (by simp) (by simp) (by simp [Nat.ofDigits])

/-- `mos_level` at work: `pmos level=6 ` -/
example : builtIn.read true ['p', 'm', 'o', 's'] (some ['6', ' ']) = some (6, .p) :=
  mos_level true .p 0 6 (by norm_num) (by norm_num) [' '] (by intro c h; cases h; decide)

/-- `builtin_again` at work: a card of capital letters -/
example : builtIn.read true ['P', 'N', 'P'] none = some (9, .p) := by decide +kernel

/-- `level_text` at work: `level= {lev}` -/
example : NoNumber [' ', '{', 'l', 'e', 'v', '}'] := by intro c h; cases h; decide

/-- `bjt_level` at work: `pnp level=01)` -/
example : builtIn.read false ['p', 'n', 'p'] (some ['0', '1', ')']) = some (9, .p) := (bjt_level false .p 1 [')'] (by intro c h; cases h; decide)).2.2

/-- `hidden` at work: the base has a key `y` that would set the other polarity -/
example : (⟨fun _ => some 0, fun _ => [⟨[(['x'], Pol.n)], [], true⟩, ⟨[(['y'], .p)], [], true⟩], fun _ => .n⟩ : Reg Pol).read true ['y'] none = some (0, .n) :=
  hidden _ true ['y'] none 0 ⟨[(['x'], Pol.n)], [], true⟩ [⟨[(['y'], .p)], [], true⟩] rfl rfl rfl (by decide)

/-- `case_ignored` at work -/
example : builtIn.read true ['P', 'm', 'O', 's'] none = some (1, .p) :=
  (case_ignored ['P', 'm', 'O', 's'] ['p', 'm', 'o', 's'] (by decide) none).trans (mos_plain true .p)

/-- `case_kept` at work -/
example : builtIn.read false ['P', 'm', 'O', 's'] none = none := case_kept _ (by decide) none

/-- `level_minus` at work: `level=-1` -/
example : builtIn.read true ['n', 'm', 'o', 's'] (some ['-', '1']) = none :=
  level_minus true ['n', 'm', 'o', 's'] [1] [] (by intro c h; cases h) (by simp) (by simp) (by simp)

/-- `level_plus` at work: `level=+4` -/
example : baseName ['n', 'm', 'o', 's'] (some ['+', '4']) = ['n', 'm', 'o', 's', '4'] :=
  (level_plus ['n', 'm', 'o', 's'] 4 (by norm_num) []).trans
    (level_name ['n', 'm', 'o', 's'] 0 [4] [] (by intro c h; cases h) (by simp) (by simp) (by simp) (by simp))

end Gnucap.ModelType.Props
