import Verif.FtosProps
import Mathlib.Data.List.TakeWhile

/-!
# The width of printed numbers (C80)

A number printed in a field as wide as its digits need fills the field, and its last character is a blank.
-/
namespace Gnucap.Num
open Gnucap.Scan

/-- the first `W` characters are a text that ends with a blank, and then it ends -/
structure Wide (W : ℕ) (l : List Char) : Prop where
  full : ∀ i < W, ∃ c, l[i]? = some c ∧ c ≠ nul
  last : l[W - 1]? = some ' '
  stop : l[W]? = some nul

/-- writing in it, not as far as the last character, or a blank there -/
theorem Wide.write {W : ℕ} {pre t suf : List Char} (h : Wide W (pre ++ suf)) (ht : ∀ c ∈ t, c ≠ nul) (hl : t.length ≤ suf.length)
    (hp : pre.length + t.length < W ∨ (pre.length + t.length = W ∧ t.getLast? = some ' ')) : Wide W (pre ++ t ++ suf.drop t.length) := by
  have hA : ∀ i, pre.length + t.length ≤ i → (pre ++ t ++ suf.drop t.length)[i]? = (pre ++ suf)[i]? := by
    intro i hi
    rw [List.getElem?_append_right (by simp; omega), List.getElem?_append_right (by omega), List.getElem?_drop]
    congr 1
    simp only [List.length_append]
    omega
  have hB : ∀ i, i < pre.length → (pre ++ t ++ suf.drop t.length)[i]? = (pre ++ suf)[i]? := by
    intro i hi
    rw [List.append_assoc, List.getElem?_append_left hi, List.getElem?_append_left hi]
  have hC : ∀ i, pre.length ≤ i → i < pre.length + t.length → (pre ++ t ++ suf.drop t.length)[i]? = t[i - pre.length]? := by
    intro i h1 h2
    rw [List.append_assoc, List.getElem?_append_right h1, List.getElem?_append_left (by omega)]
  refine ⟨fun i hi => ?_, ?_, ?_⟩
  · by_cases h1 : i < pre.length
    · rw [hB i h1]; exact h.full i hi
    · by_cases h2 : i < pre.length + t.length
      · rw [hC i (by omega) h2]
        have h3 : i - pre.length < t.length := by omega
        exact ⟨t[i - pre.length], List.getElem?_eq_getElem h3, ht _ (List.getElem_mem h3)⟩
      · rw [hA i (by omega)]; exact h.full i hi
  · rcases hp with hp | ⟨hp, hb⟩
    · rw [hA _ (by omega)]; exact h.last
    · have h0 : 0 < t.length := by
        rcases t with _ | ⟨x, t⟩
        · simp at hb
        · simp
      rw [hC _ (by omega) (by omega)]
      rw [List.getLast?_eq_getElem?] at hb
      rw [← hb]
      congr 1
      omega
  · rw [hA W (by rcases hp with hp | hp <;> omega)]; exact h.stop

theorem blank_wide (W len : ℕ) (h1 : W = len + 6) (h2 : W ≤ 39) : Wide W ((blank W len).pre ++ (blank W len).suf) := by
  subst h1
  simp only [blank, max_self, List.nil_append]
  refine ⟨fun i hi => ⟨' ', ?_, by decide⟩, ?_, ?_⟩
  · rw [List.getElem?_append_left (by simpa using hi), List.getElem?_replicate, if_pos hi]
  · rw [List.getElem?_append_left (by simp), List.getElem?_replicate, if_pos (by omega)]
  · rw [List.getElem?_append_right (by simp), List.getElem?_replicate, if_pos (by simp; omega)]

theorem finish_wide (W : ℕ) (hW : 0 < W) (b : Buf) (s : List Char) (h : Wide W (b.pre ++ b.suf)) (hs : finish W b = some s) :
    s.length = W ∧ s.getLast? = some ' ' := by
  have key : ∀ (W : ℕ) (l : List Char), (∀ i < W, ∃ c, l[i]? = some c ∧ c ≠ nul) → l[W]? = some nul → l.takeWhile (· ≠ nul) = l.take W ∧ nul ∈ l := by
    intro W
    induction W with
    | zero =>
      intro l _ h
      cases l with
      | nil => simp at h
      | cons c l => simp at h; subst h; simp
    | succ W ih =>
      intro l h1 h2
      cases l with
      | nil => simp at h2
      | cons c l =>
        obtain ⟨d, hd, hn⟩ := h1 0 (by omega)
        simp at hd
        subst hd
        obtain ⟨a, b⟩ := ih l (fun i hi => by simpa using h1 (i + 1) (by omega)) (by simpa using h2)
        rw [List.takeWhile_cons, if_pos (by simpa using hn), a]
        exact ⟨rfl, by simp [b]⟩
  obtain ⟨e, hm⟩ := key W _ h.full h.stop
  unfold finish cstr at hs
  rw [if_pos hm, e, Option.map_some, if_neg (by omega)] at hs
  cases hs
  have hlen : W < (b.pre ++ b.suf).length := by
    have := h.stop
    rw [List.getElem?_eq_some_iff] at this
    exact this.1
  refine ⟨by rw [List.length_take]; omega, ?_⟩
  rw [List.getLast?_eq_getElem?, List.length_take, Nat.min_eq_left hlen.le, List.getElem?_take_of_lt (by omega)]
  exact h.last

theorem strip_wide (W : ℕ) : ∀ (r suf : List Char) (b : Buf), strip W r suf = some b → r.length ≤ W → Wide W (r.reverse ++ suf) →
    Wide W (b.pre ++ b.suf) ∧ b.pre.length ≤ r.length ∧ b.pre.getLast? ≠ some '0'
  | [], suf, b, h, _, _ => by simp [strip] at h
  | c :: r, suf, b, h, hl, hw => by
    simp only [strip] at h
    simp only [List.length_cons] at hl
    split at h
    · rw [if_pos (by omega)] at h
      have hw' : Wide W (r.reverse ++ ' ' :: suf) := by
        have h2 : Wide W (r.reverse ++ (c :: suf)) := by simpa using hw
        have := h2.write (t := [' ']) (by simp; decide) (by simp) (by
          rcases Nat.lt_or_ge (r.length + 1) W with h | h
          · exact .inl (by simpa using h)
          · exact .inr ⟨by simp; omega, rfl⟩)
        simpa using this
      obtain ⟨a, b', c'⟩ := strip_wide W r (' ' :: suf) b h (by omega) hw'
      exact ⟨a, by simp; omega, c'⟩
    · rename_i hc
      cases h
      refine ⟨hw, by simp, ?_⟩
      simpa using hc

theorem expText_nonul (e : ℤ) (h1 : -100 < e) (h2 : e < 1000) : (expText e).length = 4 ∧ (∀ c ∈ expText e, c ≠ nul) ∧
    (-10 < e → e < 10 → (expText e).getLast? = some ' ') := by
  obtain ⟨sg, pad, a, b, -⟩ := expText_eq e h1 h2
  refine ⟨a, ?_, ?_⟩
  · intro c hc
    rw [b] at hc
    rcases List.mem_append.mp hc with hc | hc
    · simp only [Suffix.text, List.mem_append, List.mem_cons, List.mem_map] at hc
      obtain ⟨-, hd, -⟩ := expDs_value e.natAbs (by omega)
      have hsg : ∀ c ∈ sgnText sg, c ≠ nul := by
        intro c hc
        rcases sg with _ | sg
        · simp [sgnText] at hc
        · cases sg <;> simp [sgnText] at hc <;> subst hc <;> decide
      rcases hc with ((hc | hc) | ⟨d, hd2, rfl⟩) | hc
      · rw [hc]; decide
      · exact hsg c hc
      · exact (dchar_graph d (hd d hd2)).1
      · cases hc
    · rw [List.eq_of_mem_replicate hc]; decide
  · intro h3 h4
    have : ∀ n : ℕ, n < 10 → (Nat.toDigits 10 n).length = 1 := by decide
    have hl := this e.natAbs (by omega)
    unfold expText
    simp only
    rw [if_pos (by omega)]
    simp [hl, List.getLast?_cons]

/-- a letter or an exponent behind the digits -/
theorem suffix_wide (W : ℕ) (fexp : Bool) (expo : ℤ) (h1 : -100 < expo) (h2 : expo < 1000) (b b' : Buf) (ht : Tail b.suf)
    (hw : Wide W (b.pre ++ b.suf)) (hM : b.pre.getLast? ≠ some 'M')
    (hL : expo ≠ 0 → ¬ (fexp = true ∨ 10 < expo ∨ expo < -16) → b.pre.length + 3 < W)
    (hE : expo ≠ 0 → (fexp = true ∨ 10 < expo ∨ expo < -16) → b.pre.length + 4 < W ∨ b.pre.length + 4 = W ∧ -10 < expo ∧ expo < 10)
    (h : suffix fexp expo b = some b') : Wide W (b'.pre ++ b'.suf) := by
  obtain ⟨pre, suf⟩ := b
  simp only at ht hw hM hL hE
  unfold suffix at h
  by_cases h0 : expo = 0
  · rw [if_pos h0] at h
    simp only [Option.bind_some] at h
    rw [if_neg hM] at h
    cases h; exact hw
  · rw [if_neg h0] at h
    by_cases he : fexp = true ∨ 10 < expo ∨ expo < -16
    · rw [if_pos he] at h
      simp only at h
      obtain ⟨e1, e2, e3⟩ := expText_nonul expo h1 h2
      cases hc : suf[4]? with
      | none => simp [hc] at h
      | some c =>
        have hlen : 4 < suf.length := by
          rw [List.getElem?_eq_some_iff] at hc; exact hc.1
        have hcM : c ≠ 'M' := by
          have := ht.1 c (List.mem_of_getElem? hc)
          rcases this with rfl | rfl <;> decide
        obtain ⟨x0, x1, x2, x3, hx⟩ : ∃ x0 x1 x2 x3, expText expo = [x0, x1, x2, x3] := by
          match hh : expText expo, e1 with
          | [x0, x1, x2, x3], _ => exact ⟨x0, x1, x2, x3, rfl⟩
        have hd : suf.drop 4 = c :: suf.drop 5 := by
          rw [List.drop_eq_getElem_cons hlen]
          congr 1
          rw [List.getElem?_eq_getElem hlen] at hc
          exact Option.some.inj hc
        rw [hc] at h
        simp only [hx, List.cons_append, List.nil_append, List.length_cons, List.length_nil] at h
        rw [if_neg (by omega)] at h
        simp only [put, List.take_succ_cons, List.take_zero, List.drop_succ_cons, List.drop_zero, Option.bind_some] at h
        rw [if_neg (by simp [hcM])] at h
        cases h
        have := hw.write (t := expText expo) e2 (by omega) (by
          rcases hE h0 he with h | ⟨h, h'⟩
          · exact .inl (by omega)
          · exact .inr ⟨by omega, e3 h'.1 h'.2⟩)
        rw [e1, hd, hx] at this
        simpa using this
    · rw [if_neg he] at h
      have hL := hL h0 he
      cases hc : ['f', 'p', 'n', 'u', 'm', ' ', 'K', 'M', 'G', 'T'][((expo + 15) / 3).toNat]? with
      | none => simp [hc] at h
      | some c =>
        have hcn : c ≠ nul := by
          have := List.mem_of_getElem? hc
          have hall : ∀ c ∈ ['f', 'p', 'n', 'u', 'm', ' ', 'K', 'M', 'G', 'T'], c ≠ nul := by decide
          exact hall c this
        rw [hc] at h
        match suf, ht, hw with
        | [], ht, _ => exact absurd ht.2.1 (by simp)
        | a :: suf, ht, hw =>
          simp only [put, Option.bind_some] at h
          split at h
          · match suf with
            | [] => simp [put] at h
            | [_] => simp [put] at h
            | a2 :: a3 :: suf =>
              simp only [put, Option.bind_some] at h
              cases h
              have := hw.write (t := [c, 'e', 'g']) (by simp [hcn]; decide) (by simp) (.inl (by simpa using hL))
              simpa using this
          · cases h
            have := hw.write (t := [c]) (by simpa using hcn) (by simp) (.inl (by simp; omega))
            simpa using this

/-- from the digits in the buffer on -/
theorem tail_wide (W : ℕ) (hW : 0 < W) (fmt : Fmt) (hf : fmt.fill = false) (sg : Option Bool) (ip fp : List ℕ) (hfp : ∀ d ∈ fp, d < 10)
    (expo : ℤ) (h1 : -100 < expo) (h2 : expo < 1000) (b : Buf) (hb : b.pre = sgChar sg :: (ip.map dchar ++ '.' :: fp.map dchar))
    (hs : Tail b.suf) (hw : Wide W (b.pre ++ b.suf)) (hl : b.pre.length < W)
    (hL : expo ≠ 0 → ¬ (fmt.exp = true ∨ 10 < expo ∨ expo < -16) → b.pre.length + 3 < W)
    (hE : expo ≠ 0 → (fmt.exp = true ∨ 10 < expo ∨ expo < -16) → b.pre.length + 4 < W ∨ b.pre.length + 4 = W ∧ -10 < expo ∧ expo < 10 ∨
      ip.length = 1 ∧ (∃ m, fp = List.replicate m 0) ∧ 7 < W)
    (s : List Char) (h : (((if fmt.fill then some b else strip W b.pre.reverse b.suf).bind fun b => suffix fmt.exp expo b).bind (finish W)) = some s) :
    s.length = W ∧ s.getLast? = some ' ' := by
  obtain ⟨fp', k, suf', g1, g2, g3, g4⟩ := strip_eq W (sgChar sg :: ip.map dchar) fp hfp b.suf hs
  have e : strip W b.pre.reverse b.suf = some ⟨sgChar sg :: ip.map dchar ++ '.' :: fp'.map dchar, suf'⟩ := by
    rw [hb, ← List.cons_append]; exact g4
  obtain ⟨w1, w2, w3⟩ := strip_wide W _ _ _ e (by simp; omega) (by simpa using hw)
  rw [hf] at h
  simp only [Bool.false_eq_true, if_false, e, Option.bind_some] at h
  cases hx : suffix fmt.exp expo ⟨sgChar sg :: ip.map dchar ++ '.' :: fp'.map dchar, suf'⟩ with
  | none => rw [hx] at h; simp at h
  | some b' =>
    rw [hx] at h
    simp only [Option.bind_some] at h
    refine finish_wide W hW b' s ?_ h
    have hlen : (sgChar sg :: ip.map dchar ++ '.' :: fp'.map dchar).length ≤ b.pre.length := by simpa using w2
    have h6 : ∀ d ∈ fp', d < 10 := fun d hd => hfp d (by rw [g1]; simp [hd])
    refine suffix_wide W fmt.exp expo h1 h2 _ b' g2 w1 ?_ (fun a b => ?_) (fun a b => ?_) hx
    · rw [List.getLast?_append]
      rcases List.eq_nil_or_concat fp' with rfl | ⟨l, d, rfl⟩
      · simp
      · have hdd := dchar_ne d (h6 d (by simp)) 'M' rfl
        have : ('.' :: (l ++ [d]).map dchar).getLast? = some (dchar d) := by
          rw [List.map_append, ← List.cons_append, List.getLast?_append]; simp
        rw [List.concat_eq_append, this]
        simpa using hdd
    · have := hL a b
      simp only
      omega
    · rcases hE a b with h | ⟨h, h'⟩ | ⟨h, ⟨m, hm⟩, h'⟩
      · left; simp only; omega
      · rcases Nat.lt_or_ge ((sgChar sg :: ip.map dchar ++ '.' :: fp'.map dchar).length + 4) W with h5 | h5
        · exact .inl h5
        · exact .inr ⟨by simp only; omega, h'⟩
      · left
        have hn : fp' = [] := by
          rcases List.eq_nil_or_concat fp' with e | ⟨l, d, e⟩
          · exact e
          · exfalso
            have hd : d = 0 := by
              have : d ∈ fp := by rw [g1, e]; simp
              rw [hm] at this
              exact List.eq_of_mem_replicate this
            apply w3
            rw [e, hd, List.concat_eq_append, List.map_append, ← List.cons_append, ← List.append_assoc, List.getLast?_append]
            rfl
        rw [hn]
        simp [h]
        omega

/-- digits of the scaled value -/
theorem mant_wide (W L len : ℕ) (fmt : Fmt) (hf : fmt.fill = false) (hW : W = len + 6) (hL3 : 3 ≤ L) (hLl : L ≤ len) (hl33 : len ≤ 33)
    (sg : Option Bool) (y : ℚ) (hy1 : 1 / 1000 ≤ y)
    (lz : ℕ) (hz : lz ≤ 2) (hz1 : y * 10 ^ lz < 1) (hz2 : 1 ≤ y * 10 ^ (lz + 1)) (expo : ℤ) (h1 : -100 < expo) (h2 : expo < 1000)
    (b : Buf) (hb : b.pre = [sgChar sg]) (hs : Tail b.suf) (hl : b.suf.length = 39) (hw : Wide W (b.pre ++ b.suf))
    (hE : (fmt.exp = true ∨ 10 < expo ∨ expo < -16) → L + 1 ≤ len ∨ (-10 < expo ∧ expo < 10) ∨
      lz = 2 ∧ (∃ m, (digs L (y * 10 ^ lz)).drop 1 = List.replicate m 0)) (h4 : 4 ≤ len)
    (s : List Char) (h : ((((if expo = -3 then (puts ['0', '.'] b).bind (fixedLoop (L + 3) L y 0) else mantLoop (L + 3) L 2 y 0 b).bind fun b =>
        (if fmt.fill then some b else strip W b.pre.reverse b.suf).bind fun b => suffix fmt.exp (if expo = -3 then 0 else expo) b)).bind
        (finish W)) = some s) : s.length = W ∧ s.getLast? = some ' ' := by
  have hy0 : 0 ≤ y := by linarith
  have hd10 : ∀ d ∈ digs L (y * 10 ^ lz), d < 10 := digs_lt L _ (by positivity) hz1
  have hdl := digs_length L (y * 10 ^ lz)
  have hsg : sgChar sg ≠ nul := by
    rcases sg with _ | sg
    · decide
    · cases sg <;> decide
  by_cases he : expo = -3
  · simp only [he, if_true] at h
    rw [puts_eq _ b (by simp [hl])] at h
    simp only [Option.bind_some] at h
    rw [fixedLoop_zeros lz (L + 3) L y _ (by omega) (by omega) hy0 hz1 hz2] at h
    rw [puts_eq _ _ (by simp [hl, hdl]; omega)] at h
    simp only [Option.bind_some] at h
    have hfp : ∀ d ∈ List.replicate lz 0 ++ digs L (y * 10 ^ lz), d < 10 := by
      intro d hd
      rcases List.mem_append.mp hd with hd | hd
      · rw [List.eq_of_mem_replicate hd]; norm_num
      · exact hd10 d hd
    have hnn : ∀ c ∈ ['0', '.'] ++ (List.replicate lz 0 ++ digs L (y * 10 ^ lz)).map dchar, c ≠ nul := by
      intro c hc
      rcases List.mem_append.mp hc with hc | hc
      · simp at hc; rcases hc with rfl | rfl <;> decide
      · obtain ⟨d, hd, rfl⟩ := List.mem_map.mp hc
        exact (dchar_graph d (hfp d hd)).1
    have hlen : (['0', '.'] ++ (List.replicate lz 0 ++ digs L (y * 10 ^ lz)).map dchar).length = 2 + lz + L := by simp [hdl]; omega
    refine tail_wide W (by omega) fmt hf sg [0] (List.replicate lz 0 ++ digs L (y * 10 ^ lz)) hfp 0 (by norm_num) (by norm_num)
      ⟨b.pre ++ ['0', '.'] ++ (List.replicate lz 0 ++ digs L (y * 10 ^ lz)).map dchar,
        (b.suf.drop ['0', '.'].length).drop ((List.replicate lz 0 ++ digs L (y * 10 ^ lz)).map dchar).length⟩
      (by rw [hb]; simp; rfl) ?_ ?_ ?_ (by simp) (by simp) s h
    · simp only [List.drop_drop]
      apply hs.drop
      simp [hl, hdl]; omega
    · have := hw.write hnn (by rw [hlen, hl]; omega) (.inl (by rw [hlen, hb]; simp; omega))
      rw [hlen] at this
      simp only [List.drop_drop]
      have hl2 : ['0', '.'].length + ((List.replicate lz 0 ++ digs L (y * 10 ^ lz)).map dchar).length = 2 + lz + L := by simp [hdl]; omega
      rw [hl2]
      simpa using this
    · simp only
      rw [List.append_assoc, List.length_append, hlen, hb]; simp; omega
  · simp only [he, if_false] at h
    have hm := mantLoop_zeros lz 2 (L + 3) L y b hz (by omega) (by omega) hy0 hz1 hz2
    simp only [Nat.cast_ofNat] at hm
    rw [hm] at h
    have hlen : (((digs L (y * 10 ^ lz)).take (2 + 1 - lz)).map dchar ++ '.' :: ((digs L (y * 10 ^ lz)).drop (2 + 1 - lz)).map dchar).length = L + 1 := by
      simp [hdl]; omega
    rw [puts_eq _ b (by rw [hlen, hl]; omega)] at h
    simp only [Option.bind_some] at h
    have hnn : ∀ c ∈ ((digs L (y * 10 ^ lz)).take (2 + 1 - lz)).map dchar ++ '.' :: ((digs L (y * 10 ^ lz)).drop (2 + 1 - lz)).map dchar, c ≠ nul := by
      intro c hc
      rcases List.mem_append.mp hc with hc | hc
      · obtain ⟨d, hd, rfl⟩ := List.mem_map.mp hc
        exact (dchar_graph d (hd10 d (List.mem_of_mem_take hd))).1
      · rcases List.mem_cons.mp hc with rfl | hc
        · decide
        · obtain ⟨d, hd, rfl⟩ := List.mem_map.mp hc
          exact (dchar_graph d (hd10 d (List.mem_of_mem_drop hd))).1
    have hpl : (b.pre ++ (((digs L (y * 10 ^ lz)).take (2 + 1 - lz)).map dchar ++ '.' :: ((digs L (y * 10 ^ lz)).drop (2 + 1 - lz)).map dchar)).length = L + 2 := by
      rw [List.length_append, hlen, hb]; simp; omega
    refine tail_wide W (by omega) fmt hf sg ((digs L (y * 10 ^ lz)).take (2 + 1 - lz)) ((digs L (y * 10 ^ lz)).drop (2 + 1 - lz))
      (fun d hd => hd10 d (List.mem_of_mem_drop hd)) expo h1 h2
      ⟨b.pre ++ (((digs L (y * 10 ^ lz)).take (2 + 1 - lz)).map dchar ++ '.' :: ((digs L (y * 10 ^ lz)).drop (2 + 1 - lz)).map dchar),
        b.suf.drop (((digs L (y * 10 ^ lz)).take (2 + 1 - lz)).map dchar ++ '.' :: ((digs L (y * 10 ^ lz)).drop (2 + 1 - lz)).map dchar).length⟩
      (by rw [hb]; rfl) ?_ ?_ ?_ ?_ ?_ s h
    · rw [hlen]; apply hs.drop; rw [hl]; omega
    · exact hw.write hnn (by rw [hlen, hl]; omega) (.inl (by rw [hlen, hb]; simp; omega))
    · simp only; rw [hpl]; omega
    · intro _ _; simp only; rw [hpl]; omega
    · intro _ hx
      simp only
      rw [hpl]
      rcases hE hx with h | h | ⟨h, m, hm⟩
      · left; omega
      · rcases Nat.lt_or_ge (L + 2 + 4) W with h5 | h5
        · exact .inl h5
        · exact .inr (.inl ⟨by omega, h⟩)
      · subst h
        refine .inr (.inr ⟨by simp [hdl]; omega, ⟨m, hm⟩, by omega⟩)

theorem digs_zeros (n : ℕ) (y : ℚ) (h0 : 0 ≤ y) (h : y * 10 ^ n < 1) : digs n y = List.replicate n 0 := by
  induction n generalizing y with
  | zero => rfl
  | succ n ih =>
    have hp : (1 : ℚ) ≤ 10 ^ n := one_le_pow₀ (by norm_num)
    have hy : y * 10 < 1 := by
      rw [pow_succ] at h
      nlinarith [mul_nonneg h0 (by linarith : (0 : ℚ) ≤ 10 ^ n - 1)]
    have hd := digit_zero y h0 hy
    simp only [digs, hd, List.replicate_succ, Nat.cast_zero, sub_zero]
    rw [ih (y * 10) (by linarith) (by rw [pow_succ] at h; linarith)]

/-- from the scaled value on -/
theorem body_wide (W len : ℕ) (fmt : Fmt) (hf : fmt.fill = false) (hW : W = len + 6) (h4 : 4 ≤ len) (h33 : len ≤ 33) (sg : Option Bool)
    (x : ℚ) (hx1 : 1 / 1000 ≤ x) (hx2 : x < 1) (e : ℤ) (h3 : ∃ j, e = 3 * j) (h1 : -100 < e) (h2 : e < 309) (b : Buf) (hb : b.pre = [sgChar sg]) (hs : Tail b.suf)
    (hl : b.suf.length = 39) (hw : Wide W (b.pre ++ b.suf)) (s : List Char) (h : (body W len fmt x e b).bind (finish W) = some s) :
    s.length = W ∧ s.getLast? = some ' ' := by
  obtain ⟨j, hj⟩ := h3
  obtain ⟨lzx, hzx, hzx1, hzx2⟩ := exists_lz x hx1 hx2
  obtain ⟨L, hLdef, hL3, hLl, hLe, hLn⟩ : ∃ L, (if (if (fmt.exp = true ∧ e < -9) ∨ 10 < e ∨ e < -16 then len - 1 else len) < 3
      then (if (fmt.exp = true ∧ e < -9) ∨ 10 < e ∨ e < -16 then len - 1 else len) + 1
      else (if (fmt.exp = true ∧ e < -9) ∨ 10 < e ∨ e < -16 then len - 1 else len)) = L ∧ 3 ≤ L ∧ L ≤ len ∧
      (((fmt.exp = true ∧ e < -9) ∨ 10 < e ∨ e < -16) → L + 1 ≤ len) ∧ (¬ ((fmt.exp = true ∧ e < -9) ∨ 10 < e ∨ e < -16) → L = len) := by
    refine ⟨_, rfl, ?_⟩
    by_cases hc : (fmt.exp = true ∧ e < -9) ∨ 10 < e ∨ e < -16
    · simp only [hc, if_true, not_true_eq_false, false_implies, and_true, true_implies]
      rw [if_neg (by omega)]
      omega
    · simp only [hc, if_false, not_false_eq_true]
      rw [if_neg (by omega)]
      exact ⟨by omega, le_rfl, fun h => absurd h id, fun _ => rfl⟩
  have hr := rnd_eq L lzx x hzx hzx1 hzx2
  have hrpos : (0 : ℚ) < (1 / 2) / 10 ^ (L + lzx) := by positivity
  have hr1 : (1 / 2 : ℚ) / 10 ^ (L + lzx) ≤ (1 / 2) / 10 ^ L := by
    apply div_le_div_of_nonneg_left (by norm_num) (by positivity)
    exact pow_le_pow_right₀ (by norm_num) (by omega)
  have hr2 : (1 / 2 : ℚ) / 10 ^ L < 1 := by
    rw [div_lt_one (by positivity)]
    have : (1 : ℚ) ≤ 10 ^ L := one_le_pow₀ (by norm_num)
    linarith
  unfold body at h
  simp only [hLdef, hr] at h
  by_cases hy : 1 ≤ x + (1 / 2) / 10 ^ (L + lzx)
  · simp only [hy, if_true] at h
    obtain ⟨lz, hz, hz1, hz2⟩ := exists_lz ((x + (1 / 2) / 10 ^ (L + lzx)) * (1 / 1000)) (by linarith) (by linarith)
    have hlz : lz = 2 := by
      interval_cases lz
      · norm_num at hz2; linarith
      · norm_num at hz2; linarith
      · rfl
    refine mant_wide W L len fmt hf hW hL3 hLl h33 sg _ (by linarith) lz hz hz1 hz2 (e + 3) (by omega) (by omega) b hb hs hl hw ?_ h4 s h
    intro hx
    refine .inr (.inr ⟨hlz, L - 1, ?_⟩)
    subst hlz
    obtain ⟨L, rfl⟩ : ∃ k, L = k + 1 := ⟨L - 1, by omega⟩
    generalize hY : x + 1 / 2 / 10 ^ (L + 1 + lzx) = Y at *
    have hYs : Y - 1 < 1 / 2 / 10 ^ (L + 1) := by linarith
    have e1 : Y * (1 / 1000) * 10 ^ 2 * 10 = Y := by norm_num; ring
    have e2 : ⌊Y⌋.toNat = 1 := by
      have : ⌊Y⌋ = 1 := by rw [Int.floor_eq_iff]; push_cast; constructor <;> linarith
      rw [this]; rfl
    simp only [digs, e1, e2, List.drop_succ_cons, List.drop_zero, Nat.add_sub_cancel]
    push_cast
    apply digs_zeros L _ (by linarith)
    have hp : (0 : ℚ) < 10 ^ L := by positivity
    have h5 : (1 : ℚ) / 2 / 10 ^ (L + 1) * 10 ^ L = 1 / 20 := by rw [pow_succ]; field_simp; norm_num
    have := mul_lt_mul_of_pos_right hYs hp
    rw [h5] at this
    linarith
  · simp only [hy, if_false] at h
    push Not at hy
    obtain ⟨lz, hz, hz1, hz2⟩ := exists_lz (x + (1 / 2) / 10 ^ (L + lzx)) (by linarith) hy
    refine mant_wide W L len fmt hf hW hL3 hLl h33 sg _ (by linarith) lz hz hz1 hz2 e (by omega) (by omega) b hb hs hl hw ?_ h4 s h
    intro hx
    by_cases hc : (fmt.exp = true ∧ e < -9) ∨ 10 < e ∨ e < -16
    · exact .inl (hLe hc)
    · refine .inr (.inl ?_)
      push Not at hc
      obtain ⟨c1, c2, c3⟩ := hc
      rcases hx with hx | hx | hx
      · have := c1 hx
        omega
      · omega
      · omega

/-- **C80, width**: every number, printed with 4 to 33 digits in a field six wider, has exactly that many characters, the last of them a
blank. -/
theorem ftos_width (num : ℚ) (n : ℕ) (fmt : Fmt) (hf : fmt.fill = false) (h4 : 4 ≤ n) (h33 : n ≤ 33) (s : List Char)
    (h : ftos num (n + 6) n fmt = some s) : s.length = n + 6 ∧ s.getLast? = some ' ' := by
  have e1 : (if 34 < (if n < 3 then 3 else n) then 34 else (if n < 3 then 3 else n)) = n := by
    rw [if_neg (by omega : ¬ n < 3), if_neg (by omega)]
  have e2 : (if 39 < n + 6 then 39 else n + 6) = n + 6 := if_neg (by omega)
  unfold ftos at h
  simp only [e1, e2] at h
  obtain ⟨b1, b2, b3⟩ := blank_tail (n + 6) n (by omega) h33
  have hw := blank_wide (n + 6) n rfl (by omega)
  have word : ∀ t : List Char, t.length ≤ 4 → (∀ c ∈ t, c ≠ nul) → (puts t (blank (n + 6) n)).bind (finish (n + 6)) = some s →
      s.length = n + 6 ∧ s.getLast? = some ' ' := by
    intro t h1 h2 h3
    rw [puts_eq _ _ (by omega)] at h3
    simp only [Option.bind_some] at h3
    exact finish_wide _ (by omega) _ s (hw.write h2 (by omega) (.inl (by rw [b1]; simp; omega))) h3
  split at h
  · exact word _ (by simp) (by decide) h
  · split at h
    · exact word _ (by simp) (by decide) h
    · split at h
      · exact word _ (by simp) (by decide) h
      · split at h
        · exact word _ (by simp) (by decide) h
        · rename_i _ _ hb1 hb2
          by_cases h0 : (if |num| < 1 / 10 ^ 99 then 0 else num) = 0
          · rw [if_pos h0] at h
            rw [puts_eq _ _ (by simp [b3]; omega), b1] at h
            simp only [Option.bind_some, List.nil_append] at h
            have hr : List.replicate (n - 1) '0' = (List.replicate (n - 1) 0).map dchar := by simp [List.map_replicate]; exact .inr rfl
            refine tail_wide (n + 6) (by omega) fmt hf none [0] (List.replicate (n - 1) 0)
              (by intro d hd; rw [List.eq_of_mem_replicate hd]; norm_num) 0 (by norm_num) (by norm_num)
              ⟨[' ', '0', '.'] ++ List.replicate (n - 1) '0', (blank (n + 6) n).suf.drop ([' ', '0', '.'] ++ List.replicate (n - 1) '0').length⟩
              (by simp [sgChar, hr]; rfl) (by apply b2.drop; simp [b3]; omega) ?_ (by simp; omega) (by simp) (by simp) s h
            have := hw.write (t := [' ', '0', '.'] ++ List.replicate (n - 1) '0') (by
              intro c hc
              rcases List.mem_append.mp hc with hc | hc
              · simp at hc; rcases hc with rfl | rfl | rfl <;> decide
              · rw [List.eq_of_mem_replicate hc]; decide) (by simp [b3]; omega) (.inl (by rw [b1]; simp; omega))
            rw [b1] at this
            exact this
          · rw [if_neg h0] at h
            have hge : ¬ |num| < 1 / 10 ^ 99 := fun hc => h0 (by rw [if_pos hc])
            simp only [if_neg hge] at h h0
            push Not at hb1 hb2
            have hlt : |num| < bigbig := abs_lt.mpr ⟨hb2, hb1⟩
            obtain ⟨x, e, j, s1, s2, s3, s4, s5, s6, s7⟩ := scale_eq |num| (not_lt.mp hge) hlt
            obtain ⟨sg, hsg⟩ : ∃ sg, (if num < 0 then '-' else if fmt.sign then '+' else ' ') = sgChar sg := by
              by_cases hn : num < 0
              · exact ⟨some true, by simp [hn, sgChar]⟩
              · cases hf : fmt.sign
                · exact ⟨none, by simp [hn, sgChar]⟩
                · exact ⟨some false, by simp [hn, sgChar]⟩
            have hput : put (sgChar sg) (blank (n + 6) n) = some ⟨[sgChar sg], (blank (n + 6) n).suf.drop 1⟩ := by
              have := puts_eq [sgChar sg] (blank (n + 6) n) (by simp [b3])
              simp only [puts, b1, List.nil_append, List.length_singleton] at this
              rcases hh : put (sgChar sg) (blank (n + 6) n) with _ | b
              · rw [hh] at this; cases this
              · rw [hh] at this; simpa using this
            rw [hsg, hput] at h
            simp only [Option.bind_some] at h
            rcases hh : scaleSmall 400 |num| (-3) with _ | ⟨x1, e1⟩
            · rw [hh] at s1; cases s1
            · rw [hh] at s1 h
              simp only [Option.bind_some] at s1 h
              rw [s1] at h
              simp only [Option.bind_some] at h
              have hsn : ∀ c ∈ [sgChar sg], c ≠ nul := by
                intro c hc
                rw [List.mem_singleton] at hc
                rw [hc]
                rcases sg with _ | sg
                · decide
                · cases sg <;> decide
              have hw' := hw.write hsn (by simp [b3]) (.inl (by rw [b1]; simp))
              rw [b1, List.nil_append, List.length_singleton] at hw'
              exact body_wide (n + 6) n fmt hf rfl h4 h33 sg x s3 s4 e ⟨j, s5⟩ s6 s7 ⟨[sgChar sg], (blank (n + 6) n).suf.drop 1⟩ rfl
                (b2.drop 1 (by omega)) (by simp [b3]) hw' s h

example : (ftos (-12345678) 11 5 ⟨true, false, false⟩).isSome = true := by decide +kernel

/-! ## The characters of printed numbers -/

/-- what may be in the buffer -/
def Cl (c : Char) : Prop := c = nul ∨ (isGraph c = true ∧ c ∉ ['\\', '@', '=', '(']) ∨ c = ' '

def Clean (b : Buf) : Prop := (∀ c ∈ b.pre, Cl c) ∧ ∀ c ∈ b.suf, Cl c

theorem put_clean (x : Char) (hx : Cl x) (b b' : Buf) (hb : Clean b) (h : put x b = some b') : Clean b' := by
  obtain ⟨pre, suf⟩ := b
  cases suf with
  | nil => cases h
  | cons y r =>
    cases h
    refine ⟨?_, fun c hc => hb.2 c (by simp [hc])⟩
    intro c hc
    rcases List.mem_append.mp hc with hc | hc
    · exact hb.1 c hc
    · rw [List.mem_singleton.mp hc]; exact hx

theorem puts_clean (t : List Char) (ht : ∀ c ∈ t, Cl c) : ∀ b b' : Buf, Clean b → puts t b = some b' → Clean b' := by
  induction t with
  | nil => intro b b' hb h; cases h; exact hb
  | cons x r ih =>
    intro b b' hb h
    simp only [puts] at h
    rcases hh : put x b with _ | b1
    · rw [hh] at h; cases h
    · rw [hh] at h
      exact ih (fun c hc => ht c (by simp [hc])) b1 b' (put_clean x (ht x (by simp)) b b1 hb hh) h

theorem digit_lt (y : ℚ) (h0 : 0 ≤ y) (h1 : y < 1) : ⌊y * 10⌋.toNat < 10 ∧ 0 ≤ y * 10 - ⌊y * 10⌋.toNat ∧ y * 10 - ⌊y * 10⌋.toNat < 1 := by
  have a : 0 ≤ ⌊y * 10⌋ := Int.floor_nonneg.mpr (by linarith)
  have b : ⌊y * 10⌋ < 10 := Int.floor_lt.mpr (by push_cast; linarith)
  have c : ((⌊y * 10⌋.toNat : ℕ) : ℚ) = (⌊y * 10⌋ : ℤ) := by
    rw [← Int.cast_natCast, Int.toNat_of_nonneg a]
  refine ⟨by omega, ?_, ?_⟩
  · rw [c]; linarith [Int.floor_le (y * 10)]
  · rw [c]; linarith [Int.lt_floor_add_one (y * 10)]

theorem dchar_clean (d : ℕ) (h : d < 10) : Cl (dchar d) := .inr (.inl ⟨(dchar_graph d h).2, by interval_cases d <;> decide⟩)

theorem fixed_clean (k : ℕ) : ∀ (l : ℕ) (y : ℚ) (flg : ℕ) (b b' : Buf), 0 ≤ y → y < 1 → Clean b → fixedLoop k l y flg b = some b' → Clean b' := by
  induction k with
  | zero =>
    intro l y flg b b' _ _ hb h
    cases l with
    | zero => simp [fixedLoop] at h; subst h; exact hb
    | succ l => simp [fixedLoop] at h
  | succ k ih =>
    intro l y flg b b' h0 h1 hb h
    cases l with
    | zero => simp [fixedLoop] at h; subst h; exact hb
    | succ l =>
      obtain ⟨d1, d2, d3⟩ := digit_lt y h0 h1
      simp only [fixedLoop] at h
      rcases hh : put (dchar ⌊y * 10⌋.toNat) b with _ | b1
      · rw [hh] at h; cases h
      · rw [hh] at h
        exact ih _ _ _ b1 b' d2 d3 (put_clean _ (dchar_clean _ d1) b b1 hb hh) h

theorem mant_clean (k : ℕ) : ∀ (l : ℕ) (i : ℤ) (y : ℚ) (flg : ℕ) (b b' : Buf), 0 ≤ y → y < 1 → Clean b → mantLoop k l i y flg b = some b' →
    Clean b' := by
  induction k with
  | zero =>
    intro l i y flg b b' _ _ hb h
    cases l with
    | zero => simp [mantLoop] at h; subst h; exact hb
    | succ l => simp [mantLoop] at h
  | succ k ih =>
    intro l i y flg b b' h0 h1 hb h
    cases l with
    | zero => simp [mantLoop] at h; subst h; exact hb
    | succ l =>
      obtain ⟨d1, d2, d3⟩ := digit_lt y h0 h1
      simp only [mantLoop] at h
      rcases hh : (if flg + ⌊y * 10⌋.toNat ≠ 0 then put (dchar ⌊y * 10⌋.toNat) b else some b) with _ | b1
      · rw [hh] at h; cases h
      · rw [hh] at h
        have c1 : Clean b1 := by
          split at hh
          · exact put_clean _ (dchar_clean _ d1) b b1 hb hh
          · cases hh; exact hb
        simp only [Option.bind_some] at h
        rcases hh2 : (if i = 0 then put '.' b1 else some b1) with _ | b2
        · rw [hh2] at h; cases h
        · rw [hh2] at h
          have c2 : Clean b2 := by
            split at hh2
            · exact put_clean _ (.inr (.inl (by decide))) b1 b2 c1 hh2
            · cases hh2; exact c1
          exact ih _ _ _ _ b2 b' d2 d3 c2 h

theorem strip_clean (fw : ℕ) (r : List Char) : ∀ (suf : List Char) (b' : Buf), (∀ c ∈ r, Cl c) → (∀ c ∈ suf, Cl c) → strip fw r suf = some b' →
    Clean b' := by
  induction r with
  | nil => intro suf b' _ _ h; cases h
  | cons c r ih =>
    intro suf b' h1 h2 h
    simp only [strip] at h
    split at h
    · refine ih _ b' (fun c hc => h1 c (by simp [hc])) ?_ h
      intro x hx
      rcases List.mem_cons.mp hx with rfl | hx
      · split
        · exact .inr (.inr rfl)
        · exact .inl rfl
      · exact h2 x hx
    · cases h
      exact ⟨fun x hx => h1 x (List.mem_reverse.mp hx), h2⟩

theorem expText_clean (e : ℤ) (h1 : -100 < e) (h2 : e < 1000) : ∀ c ∈ expText e, Cl c := by
  obtain ⟨sg, pad, a, b, -⟩ := expText_eq e h1 h2
  intro c hc
  rw [b] at hc
  rcases List.mem_append.mp hc with hc | hc
  · simp only [Suffix.text, List.mem_append, List.mem_cons, List.mem_map] at hc
    obtain ⟨-, hd, -⟩ := expDs_value e.natAbs (by omega)
    have hsg : ∀ c ∈ sgnText sg, Cl c := by
      intro c hc
      rcases sg with _ | sg
      · simp [sgnText] at hc
      · cases sg <;> simp [sgnText] at hc <;> subst hc <;> exact .inr (.inl (by decide))
    rcases hc with ((hc | hc) | ⟨d, hd2, rfl⟩) | hc
    · rw [hc]; exact .inr (.inl (by decide))
    · exact hsg c hc
    · exact dchar_clean d (hd d hd2)
    · cases hc
  · rw [List.eq_of_mem_replicate hc]; exact .inr (.inr rfl)

theorem suffix_clean (fexp : Bool) (expo : ℤ) (h1 : -100 < expo) (h2 : expo < 1000) (b b' : Buf) (hb : Clean b)
    (h : suffix fexp expo b = some b') : Clean b' := by
  unfold suffix at h
  obtain ⟨b1, hh, h⟩ := Option.bind_eq_some_iff.mp h
  ·
    have c1 : Clean b1 := by
      by_cases e0 : expo = 0
      · rw [if_pos e0] at hh; cases hh; exact hb
      · rw [if_neg e0] at hh
        by_cases e1 : fexp = true ∨ 10 < expo ∨ expo < -16
        · rw [if_pos e1] at hh
          rcases h4 : b.suf[4]? with _ | c
          · rw [h4] at hh; cases hh
          · rw [h4] at hh
            simp only at hh
            by_cases e2 : b.suf.length < (expText expo ++ [nul]).length
            · rw [if_pos e2] at hh; cases hh
            · rw [if_neg e2] at hh
              have hsuf : ∀ c ∈ (expText expo ++ [nul]) ++ b.suf.drop (expText expo ++ [nul]).length, Cl c := by
                intro c hc
                rcases List.mem_append.mp hc with hc | hc
                · rcases List.mem_append.mp hc with hc | hc
                  · exact expText_clean expo h1 h2 c hc
                  · exact .inl (List.mem_singleton.mp hc)
                · exact hb.2 c (List.mem_of_mem_drop hc)
              refine put_clean c (hb.2 c (List.mem_of_getElem? h4)) _ b1 ⟨?_, fun c hc => hsuf c (List.mem_of_mem_drop hc)⟩ hh
              intro c hc
              rcases List.mem_append.mp hc with hc | hc
              · exact hb.1 c hc
              · exact hsuf c (List.mem_of_mem_take hc)
        · rw [if_neg e1] at hh
          rcases h4 : ['f', 'p', 'n', 'u', 'm', ' ', 'K', 'M', 'G', 'T'][((expo + 15) / 3).toNat]? with _ | c
          · rw [h4] at hh; cases hh
          · rw [h4] at hh
            have hm := List.mem_of_getElem? h4
            refine put_clean c ?_ b b1 hb hh
            simp only [List.mem_cons, List.not_mem_nil, or_false] at hm
            rcases hm with rfl | rfl | rfl | rfl | rfl | rfl | rfl | rfl | rfl | rfl <;>
              first | exact .inr (.inr rfl) | exact .inr (.inl (by decide))
    split at h
    · rcases hh3 : put 'e' b1 with _ | b2
      · rw [hh3] at h; cases h
      · rw [hh3] at h
        exact put_clean _ (.inr (.inl (by decide))) b2 b' (put_clean _ (.inr (.inl (by decide))) b1 b2 c1 hh3) h
    · cases h; exact c1

theorem tail_clean (fw : ℕ) (fmt : Fmt) (expo : ℤ) (h1 : -100 < expo) (h2 : expo < 1000) (b b' : Buf) (hb : Clean b)
    (h : ((if fmt.fill then some b else strip fw b.pre.reverse b.suf).bind fun b => suffix fmt.exp expo b) = some b') : Clean b' := by
  rcases hh : (if fmt.fill then some b else strip fw b.pre.reverse b.suf) with _ | b1
  · rw [hh] at h; cases h
  · rw [hh] at h
    refine suffix_clean _ _ h1 h2 b1 b' ?_ h
    split at hh
    · cases hh; exact hb
    · exact strip_clean fw _ _ b1 (fun c hc => hb.1 c (List.mem_reverse.mp hc)) hb.2 hh

theorem body_clean (fw len : ℕ) (fmt : Fmt) (x : ℚ) (e : ℤ) (h0 : 0 ≤ x) (h1 : x < 1) (he1 : -100 < e) (he2 : e < 900) (b b' : Buf) (hb : Clean b)
    (h : body fw len fmt x e b = some b') : Clean b' := by
  have hr : ∀ l, 0 ≤ rnd l x ∧ rnd l x ≤ 1 := by
    intro l
    have a : (0 : ℚ) ≤ (1 / 2) / 10 ^ l := by positivity
    have c : (1 / 2 : ℚ) / 10 ^ l ≤ 1 := by
      rw [div_le_one (by positivity)]
      have : (1 : ℚ) ≤ 10 ^ l := one_le_pow₀ (by norm_num)
      linarith
    unfold rnd
    simp only
    split
    · constructor <;> linarith
    · split
      · constructor <;> linarith
      · exact ⟨a, c⟩
  unfold body at h
  simp only at h
  generalize (if (if (fmt.exp = true ∧ e < -9) ∨ 10 < e ∨ e < -16 then len - 1 else len) < 3 then
    (if (fmt.exp = true ∧ e < -9) ∨ 10 < e ∨ e < -16 then len - 1 else len) + 1 else
    (if (fmt.exp = true ∧ e < -9) ∨ 10 < e ∨ e < -16 then len - 1 else len)) = L at h
  obtain ⟨r1, r2⟩ := hr L
  have hp : ∃ y e', (if 1 ≤ x + rnd L x then ((x + rnd L x) * (1 / 1000), e + 3) else (x + rnd L x, e)) = (y, e') ∧ 0 ≤ y ∧ y < 1 ∧
      -100 < e' ∧ e' < 1000 := by
    split
    · exact ⟨_, _, rfl, by linarith, by linarith, by omega, by omega⟩
    · exact ⟨_, _, rfl, by linarith, by linarith, by omega, by omega⟩
  obtain ⟨y, e', hy, y0, y1, e1, e2⟩ := hp
  rw [hy] at h
  simp only at h
  rcases hh : (if e' = -3 then (puts ['0', '.'] b).bind (fixedLoop (L + 3) L y 0) else mantLoop (L + 3) L 2 y 0 b) with _ | b1
  · rw [hh] at h; cases h
  · rw [hh] at h
    have c1 : Clean b1 := by
      split at hh
      · rcases hh2 : puts ['0', '.'] b with _ | b0
        · rw [hh2] at hh; cases hh
        · rw [hh2] at hh
          refine fixed_clean _ _ _ _ b0 b1 y0 y1 (puts_clean _ ?_ b b0 hb hh2) hh
          intro c hc
          simp only [List.mem_cons, List.not_mem_nil, or_false] at hc
          rcases hc with rfl | rfl <;> exact .inr (.inl (by decide))
      · exact mant_clean _ _ _ _ _ b b1 y0 y1 hb hh
    exact tail_clean fw fmt (if e' = -3 then 0 else e') (by split <;> omega) (by split <;> omega) b1 b' c1 h

/-- **C80, characters**: every printed number is made of printable characters, none of them a backslash, `@`, `=` or `(`, and blanks. -/
theorem ftos_visible (num : ℚ) (fw len : ℕ) (fmt : Fmt) (s : List Char) (h : ftos num fw len fmt = some s) :
    ∀ c ∈ s, (isGraph c = true ∧ c ∉ ['\\', '@', '=', '(']) ∨ c = ' ' := by
  unfold ftos at h
  simp only at h
  generalize (if 34 < (if len < 3 then 3 else len) then 34 else (if len < 3 then 3 else len)) = L at h
  generalize (if 39 < fw then 39 else fw) = F at h
  have hb : Clean (blank F L) := by
    refine ⟨by simp [blank], ?_⟩
    intro c hc
    simp only [blank, List.mem_append] at hc
    rcases hc with hc | hc
    · exact .inr (.inr (List.eq_of_mem_replicate hc))
    · exact .inl (List.eq_of_mem_replicate hc)
  have fin : ∀ b, Clean b → finish F b = some s → ∀ c ∈ s, (isGraph c = true ∧ c ∉ ['\\', '@', '=', '(']) ∨ c = ' ' := by
    intro b hb h c hc
    unfold finish cstr at h
    by_cases hn : nul ∈ b.pre ++ b.suf
    · rw [if_pos hn] at h
      simp only [Option.map_some, Option.some.injEq] at h
      have hin : c ∈ (b.pre ++ b.suf).takeWhile (· ≠ nul) := by
        rw [← h] at hc
        split at hc
        · exact List.mem_reverse.mp ((List.dropWhile_sublist _).mem (List.mem_reverse.mp hc))
        · exact hc
      have hne : c ≠ nul := by simpa using List.mem_takeWhile_imp hin
      have hmem := (List.takeWhile_sublist _).mem hin
      rcases List.mem_append.mp hmem with hm | hm
      · exact (hb.1 c hm).resolve_left hne
      · exact (hb.2 c hm).resolve_left hne
    · rw [if_neg hn] at h; cases h
  have word : ∀ t : List Char, (∀ c ∈ t, (isGraph c = true ∧ c ∉ ['\\', '@', '=', '(']) ∨ c = ' ') → (puts t (blank F L)).bind (finish F) = some s →
      ∀ c ∈ s, (isGraph c = true ∧ c ∉ ['\\', '@', '=', '(']) ∨ c = ' ' := by
    intro t ht h
    rcases hh : puts t (blank F L) with _ | b
    · rw [hh] at h; cases h
    · rw [hh] at h
      exact fin b (puts_clean t (fun c hc => .inr (ht c hc)) _ b hb hh) h
  split at h
  · exact word _ (by decide) h
  · split at h
    · exact word _ (by decide) h
    · split at h
      · exact word _ (by decide) h
      · split at h
        · exact word _ (by decide) h
        · rename_i _ _ hb1 hb2
          push Not at hb1 hb2
          by_cases h0 : (if |num| < 1 / 10 ^ 99 then 0 else num) = 0
          · rw [if_pos h0] at h
            rcases hh : puts ([' ', '0', '.'] ++ List.replicate (L - 1) '0') (blank F L) with _ | b
            · rw [hh] at h; cases h
            · rw [hh] at h
              simp only [Option.bind_some] at h
              have c1 : Clean b := by
                refine puts_clean _ ?_ _ b hb hh
                intro c hc
                rcases List.mem_append.mp hc with hc | hc
                · simp only [List.mem_cons, List.not_mem_nil, or_false] at hc
                  rcases hc with rfl | rfl | rfl
                  · exact .inr (.inr rfl)
                  · exact .inr (.inl (by decide))
                  · exact .inr (.inl (by decide))
                · rw [List.eq_of_mem_replicate hc]; exact .inr (.inl (by decide))
              rcases hh2 : ((if fmt.fill then some b else strip F b.pre.reverse b.suf).bind fun b => suffix fmt.exp 0 b) with _ | b2
              · rw [hh2] at h; cases h
              · rw [hh2] at h
                exact fin b2 (tail_clean F fmt 0 (by norm_num) (by norm_num) b b2 c1 hh2) h
          · rw [if_neg h0] at h
            have hge : ¬ |num| < 1 / 10 ^ 99 := fun hc => h0 (by rw [if_pos hc])
            simp only [if_neg hge] at h h0
            have hlt : |num| < bigbig := abs_lt.mpr ⟨hb2, hb1⟩
            obtain ⟨x, e, j, s1, s2, s3, s4, s5, s6, s7⟩ := scale_eq |num| (not_lt.mp hge) hlt
            rcases hput : put (if num < 0 then '-' else if fmt.sign then '+' else ' ') (blank F L) with _ | b
            · rw [hput] at h; cases h
            · rw [hput] at h
              simp only [Option.bind_some] at h
              have c1 : Clean b := by
                refine put_clean _ ?_ _ b hb hput
                split
                · exact .inr (.inl (by decide))
                · split
                  · exact .inr (.inl (by decide))
                  · exact .inr (.inr rfl)
              rcases hh : scaleSmall 400 |num| (-3) with _ | ⟨x1, e1⟩
              · rw [hh] at s1; cases s1
              · rw [hh] at s1 h
                simp only [Option.bind_some] at s1 h
                rw [s1] at h
                simp only [Option.bind_some] at h
                rcases hh2 : body F L fmt x e b with _ | b2
                · rw [hh2] at h; cases h
                · rw [hh2] at h
                  exact fin b2 (body_clean F L fmt x e (by linarith) s4 s6 (by omega) b b2 c1 hh2) h

example : (ftos (-12345678) 0 5 ⟨true, false, false⟩).isSome = true := by decide +kernel

end Gnucap.Num
