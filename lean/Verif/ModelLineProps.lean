import Verif.ModelLineModel
import Verif.SpiceProps

/-!
# A model card listed is read again as it was (C109)
-/
namespace Gnucap.ModelLine.Props
open Gnucap.Scan Gnucap.Spice

/-- a name and a value that can stand in a list in parentheses as they are -/
def Pair (a : List Char × List Char) : Prop := ArgName a.1 ∧ a.1.head? ≠ some ')' ∧ ArgValue a.2

private theorem miss_close (nm rest : List Char) (hn : ArgName nm) (hc : nm.head? ≠ some ')') : (skip1b [')'] (nm ++ rest)).1 = false := by
  obtain ⟨c, nm', rfl⟩ := List.exists_cons_of_ne_nil hn.ne
  rw [List.cons_append, skip1b_miss _ _ _ (hn.graph c (by simp)) (by
    have : c ≠ ')' := fun e => hc (by simp [e])
    simp [this])]

/-- one pair in parentheses -/
private theorem pair_paren (n : ℕ) (acc : List (List Char × List Char)) (nm v rest t : List Char) (hn : ArgName nm) (hc : nm.head? ≠ some ')')
    (hv : ArgValue v) (hr : ∀ c, rest.head? = some c → stops [',', '=', ';', ')'] c = true) (ht : skipcom rest = t) :
    argsLoop true (n + 1) acc (nm ++ '=' :: v ++ rest) = argsLoop true n (acc ++ [(nm, v)]) t := by
  have e0 : nm ++ '=' :: v ++ rest = nm ++ ('=' :: (v ++ rest)) := by simp
  rw [e0]
  have hN := hn.next ('=' :: (v ++ rest))
  have hne : nm ++ ('=' :: (v ++ rest)) ≠ [] := by simp
  have h1 : ctos ['='] [] (nm ++ ('=' :: (v ++ rest))) = (nm, '=' :: (v ++ rest)) := by
    rw [ctos_plain ['='] [] nm _ hn.ne hn.graph (fun c hc => by
      have : c ≠ '=' := fun e => hn.noEq (e ▸ hc)
      simp [this]) (fun _ _ => rfl) (fun c hc => by
      simp only [List.head?_cons, Option.some.injEq] at hc; subst hc; decide)]
    rw [Next.skipcom (.inr ⟨'=', _, rfl, by decide, by decide⟩)]
  have hvN : skipbl (v ++ rest) = v ++ rest := by
    obtain ⟨c, v', rfl⟩ := List.exists_cons_of_ne_nil hv.ne
    exact skipbl_cons _ (hv.graph c (by simp))
  have h2 : skip1b ['='] ('=' :: (v ++ rest)) = (true, v ++ rest) := by
    rw [skip1b_hit _ _ _ (by decide) (by decide), hvN]
  have h3 : ctos [',', '=', ';', ')'] [('"', '"'), ('\'', '\''), ('{', '}'), ('(', ')')] (v ++ rest) = (v, t) := by
    rw [ctos_plain _ _ v rest hv.ne hv.graph (fun c hc => by simpa using hv.noTerm c hc) (fun c hc => by
      have := hv.head c hc
      simp only [List.mem_cons, List.not_mem_nil, or_false, not_or] at this
      simp [List.lookup, beq_false_of_ne this.1, beq_false_of_ne this.2.1, beq_false_of_ne this.2.2.1, beq_false_of_ne this.2.2.2]) hr, ht]
  have h0 := miss_close nm ('=' :: (v ++ rest)) hn hc
  conv_lhs => unfold argsLoop
  simp only [h0, Bool.false_eq_true, and_false, if_false, hN.skipbl, hne, h1, h2, h3]
  rw [if_neg]
  intro e
  have h4 := (skipcom_suffix rest).length_le
  rw [ht] at h4
  simp only [List.length_append, List.length_cons] at e
  omega

private theorem next_skipcom {s : List Char} (h : Next (skipbl s)) : skipcom s = skipbl s := by
  have h1 := h.skipcom
  unfold skipcom at h1 ⊢
  rwa [skipbl_idem] at h1

private theorem tail_next : ∀ (args : List (List Char × List Char)) (tail : List Char), (∀ a ∈ args, Pair a) → Next (skipbl tail) →
    Next (skipbl (args.flatMap listArg ++ tail))
  | [], _, _, ht => ht
  | a :: l, tail, h, _ => by
    have hN := (h a (by simp)).1.next ('=' :: a.2 ++ l.flatMap listArg ++ tail)
    have e : (a :: l).flatMap listArg ++ tail = ' ' :: (a.1 ++ ('=' :: a.2 ++ l.flatMap listArg ++ tail)) := by simp [listArg]
    rw [e, show skipbl (' ' :: (a.1 ++ ('=' :: a.2 ++ l.flatMap listArg ++ tail))) = skipbl (a.1 ++ ('=' :: a.2 ++ l.flatMap listArg ++ tail)) from rfl,
      hN.skipbl]
    exact hN

/-- pairs in parentheses, with anything behind them -/
private theorem loop_paren (tail : List Char) (hh : tail.head? = some ' ' ∨ tail.head? = some ')') (hN : Next (skipbl tail)) :
    ∀ (args : List (List Char × List Char)) (n : ℕ) (acc : List (List Char × List Char)), (∀ a ∈ args, Pair a) →
      argsLoop true (n + args.length) acc (skipbl (args.flatMap listArg ++ tail)) = argsLoop true n (acc ++ args) (skipbl tail)
  | [], n, acc, _ => by simp
  | (nm, v) :: l, n, acc, h => by
    obtain ⟨h1, h2, h3⟩ := h (nm, v) (by simp)
    have hl : ∀ a ∈ l, Pair a := fun a ha => h a (by simp [ha])
    have e : skipbl (((nm, v) :: l).flatMap listArg ++ tail) = nm ++ '=' :: v ++ (l.flatMap listArg ++ tail) := by
      have e1 : ((nm, v) :: l).flatMap listArg ++ tail = ' ' :: (nm ++ ('=' :: v ++ (l.flatMap listArg ++ tail))) := by simp [listArg]
      rw [e1, show skipbl (' ' :: (nm ++ ('=' :: v ++ (l.flatMap listArg ++ tail)))) = skipbl (nm ++ ('=' :: v ++ (l.flatMap listArg ++ tail))) from rfl,
        (h1.next _).skipbl]
      simp
    rw [e, List.length_cons, ← Nat.add_assoc, pair_paren (n + l.length) acc nm v _ _ h1 h2 h3 ?_ (next_skipcom (tail_next l tail hl hN)),
      loop_paren tail hh hN l n _ hl]
    · simp
    · intro c hc
      cases l with
      | nil =>
        simp only [List.flatMap_nil, List.nil_append] at hc
        rcases hh with hh | hh <;> rw [hh] at hc <;> cases hc <;> decide
      | cons b l =>
        have : c = ' ' := by simpa [listArg] using hc.symm
        rw [this]; decide

private theorem close (n : ℕ) (acc : List (List Char × List Char)) (r : List Char) : argsLoop true (n + 1) acc (')' :: r) = some acc := by
  have : (skip1b [')'] (')' :: r)).1 = true := by rw [skip1b_hit _ _ _ (by decide) (by decide)]
  unfold argsLoop
  simp only [this, and_self, if_true]

/-- the head of a line -/
private theorem read_paren (ci : Bool) (n : ℕ) (label type body : List Char) (hl : Plain label) (ht : Plain type) (hb : match1 ['\'', '{'] (skipbl body) = false) :
    readCard ci n (label ++ ' ' :: type ++ [' ', '('] ++ body) =
      match argsLoop true n [] (skipbl body) with
      | none => .rounds
      | some args => .card ⟨label, type, args⟩ := by
  have e1 : word (label ++ ' ' :: type ++ [' ', '('] ++ body) = (label, type ++ ' ' :: '(' :: body) := by
    rw [show label ++ ' ' :: type ++ [' ', '('] ++ body = label ++ (' ' :: (type ++ ' ' :: '(' :: body)) by simp, word_plain label _ hl rfl]
    exact congrArg (Prod.mk label) (skipcom_gap ⟨[' '], false, []⟩ ⟨by simp [isSpace], by simp⟩ _ (ht.next (' ' :: '(' :: body)))
  have hN : Next ('(' :: body) := .inr ⟨'(', body, rfl, by decide, by decide⟩
  have e2 : word (type ++ ' ' :: '(' :: body) = (type, '(' :: body) := by
    rw [word_plain type _ ht rfl]
    exact congrArg (Prod.mk type) (skipcom_gap ⟨[' '], false, []⟩ ⟨by simp [isSpace], by simp⟩ _ hN)
  have e3 : umatch ci ['p','a','r','a','m','s',':'] ('(' :: body) = .fail :=
    umatch_lits_fail ci _ [] ('(' :: body) (by decide) (by decide) rfl hN (by
      rintro ⟨m, r, e, hs⟩
      have : m = [] := by simpa using congrArg (fun l => l.take m.length) e.symm
      subst this
      cases hs)
  have e4 : skip1b ['('] ('(' :: body) = (true, skipbl body) := by rw [skip1b_hit _ _ _ (by decide) (by decide)]
  unfold readCard
  simp only [e1, e2, e3, e4, hb, Bool.false_eq_true, if_false]
  cases argsLoop true n [] (skipbl body) <;> rfl

private theorem no_quote (args : List (List Char × List Char)) (tail : List Char) (h : ∀ a ∈ args, Pair a) (ht : match1 ['\'', '{'] (skipbl tail) = false) :
    match1 ['\'', '{'] (skipbl (args.flatMap listArg ++ tail)) = false := by
  cases args with
  | nil => simpa using ht
  | cons a l =>
    have hn := (h a (by simp)).1
    have hN := hn.next ('=' :: a.2 ++ l.flatMap listArg ++ tail)
    have e : (a :: l).flatMap listArg ++ tail = ' ' :: (a.1 ++ ('=' :: a.2 ++ l.flatMap listArg ++ tail)) := by simp [listArg]
    rw [e, show skipbl (' ' :: (a.1 ++ ('=' :: a.2 ++ l.flatMap listArg ++ tail))) = skipbl (a.1 ++ ('=' :: a.2 ++ l.flatMap listArg ++ tail)) from rfl,
      hN.skipbl]
    obtain ⟨c, w, hw⟩ := List.exists_cons_of_ne_nil hn.ne
    have hh := hn.head c (by rw [hw]; rfl)
    simp only [List.mem_cons, List.not_mem_nil, or_false, not_or] at hh
    rw [hw]
    simp [match1, hh]

/-- C109: a card whose names and values can stand on a line as they are is read back as listed: label, type, pairs in order -/
theorem card_partial (ci : Bool) (n : ℕ) (c : Card) (hn : c.args.length < n) (hl : Plain c.label) (ht : Plain c.type) (ha : ∀ a ∈ c.args, Pair a) :
    readCard ci n (listCard c) = .card c := by
  obtain ⟨k, rfl⟩ : ∃ k, n = k + 1 + c.args.length := ⟨n - 1 - c.args.length, by omega⟩
  have hN : Next (skipbl [')']) := .inr ⟨')', [], rfl, by decide, by decide⟩
  unfold listCard
  rw [List.append_assoc, read_paren ci _ _ _ _ hl ht (no_quote _ _ ha rfl), loop_paren [')'] (.inr rfl) hN c.args (k + 1) [] ha,
    show skipbl [')'] = [')'] from rfl, close]
  simp

/-- C109: a card that lists only what was given reads back as what was given, in order -/
theorem given_partial (ci : Bool) (n : ℕ) (label type : List Char) (ps : List Par) (hn : ps.length < n) (hl : Plain label) (ht : Plain type)
    (hp : ∀ p ∈ ps, ∀ v, p.given = some v → Pair (p.name, v)) :
    readCard ci n (listCard ⟨label, type, pairs false ps⟩) = .card ⟨label, type, ps.filterMap fun p => p.given.map fun v => (p.name, v)⟩ := by
  have e : ∀ l : List Par, pairs false l = l.filterMap fun p => p.given.map fun v => (p.name, v) := by
    intro l
    induction l with
    | nil => rfl
    | cons p l ih =>
      unfold pairs
      cases h : p.given with
      | none => simp [h, ih]
      | some v => simp [h, ih, Par.string]
  rw [e]
  refine card_partial ci n _ ?_ hl ht ?_
  · exact lt_of_le_of_lt (List.length_filterMap_le _ _) hn
  · intro a ha
    obtain ⟨p, hp1, hp2⟩ := List.mem_filterMap.mp ha
    obtain ⟨v, hv, rfl⟩ := Option.map_eq_some_iff.mp hp2
    exact hp p hp1 v hv

/-- C109: a logic family all of whose parameters were given reads back -/
theorem logic_partial (ci : Bool) (n : ℕ) (label type : List Char) (ps : List Par) (hn : ps.length < n) (hl : Plain label) (ht : Plain type)
    (hp : ∀ p ∈ ps, ∃ v, p.given = some v ∧ Pair (p.name, v)) :
    readCard ci n (listCard ⟨label, type, pairs true ps⟩) = .card ⟨label, type, ps.filterMap fun p => p.given.map fun v => (p.name, v)⟩ := by
  have e : ∀ l : List Par, (∀ p ∈ l, ∃ v, p.given = some v ∧ Pair (p.name, v)) → pairs true l = pairs false l := by
    intro l
    induction l with
    | nil => intro _; rfl
    | cons p l ih =>
      intro h
      obtain ⟨v, hv, -⟩ := h p (by simp)
      unfold pairs
      simp [hv, ih fun p hp => h p (by simp [hp])]
  rw [e ps hp]
  refine given_partial ci n label type ps hn hl ht fun p hp' v hv => ?_
  obtain ⟨v', h1, h2⟩ := hp p hp'
  rw [h1] at hv
  cases hv
  exact h2

/-- C109 fails: a value with a closing parenthesis ends there, and all that is listed behind it is lost, whatever it is -/
theorem value_cut (ci : Bool) (n : ℕ) (label type nm v w : List Char) (pre post : List (List Char × List Char)) (hn : pre.length + 1 < n)
    (hl : Plain label) (ht : Plain type) (hp : ∀ a ∈ pre, Pair a) (hv : Pair (nm, v)) :
    readCard ci n (listCard ⟨label, type, pre ++ (nm, v ++ ')' :: w) :: post⟩) = .card ⟨label, type, pre ++ [(nm, v)]⟩ := by
  obtain ⟨k, rfl⟩ : ∃ k, n = k + 1 + (pre ++ [(nm, v)]).length := ⟨n - 2 - pre.length, by simp; omega⟩
  have ha : ∀ a ∈ pre ++ [(nm, v)], Pair a := by
    intro a h
    rcases List.mem_append.mp h with h | h
    · exact hp a h
    · rw [List.mem_singleton.mp h]; exact hv
  have e : (pre ++ (nm, v ++ ')' :: w) :: post).flatMap listArg ++ [')'] =
      (pre ++ [(nm, v)]).flatMap listArg ++ (')' :: (w ++ post.flatMap listArg ++ [')'])) := by simp [listArg]
  have hs : skipbl (')' :: (w ++ post.flatMap listArg ++ [')'])) = ')' :: (w ++ post.flatMap listArg ++ [')']) := skipbl_cons _ (by decide)
  have hN : Next (skipbl (')' :: (w ++ post.flatMap listArg ++ [')']))) := by
    rw [hs]; exact .inr ⟨')', _, rfl, by decide, by decide⟩
  unfold listCard
  rw [List.append_assoc, e, read_paren ci _ _ _ _ hl ht (no_quote _ _ ha (by rw [hs]; rfl)), loop_paren _ (.inr rfl) hN _ (k + 1) [] ha, hs, close]
  simp

/-- C109 fails: a logic family reads back only up to its first parameter that was not given, and that one as the text `NA(` with its default -/
theorem logic_cut (ci : Bool) (n : ℕ) (label type : List Char) (pre post : List Par) (p : Par) (hn : pre.length + 1 < n) (hl : Plain label)
    (ht : Plain type) (hp : ∀ q ∈ pre, ∃ v, q.given = some v ∧ Pair (q.name, v)) (hg : p.given = none)
    (hq : Pair (p.name, ['N', 'A', '('] ++ p.soft)) :
    readCard ci n (listCard ⟨label, type, pairs true (pre ++ p :: post)⟩) =
      .card ⟨label, type, (pre.filterMap fun q => q.given.map fun v => (q.name, v)) ++ [(p.name, ['N', 'A', '('] ++ p.soft)]⟩ := by
  have e : ∀ l : List Par, (∀ q ∈ l, ∃ v, q.given = some v ∧ Pair (q.name, v)) → ∀ r, pairs true (l ++ r) =
      (l.filterMap fun q => q.given.map fun v => (q.name, v)) ++ pairs true r := by
    intro l
    induction l with
    | nil => intro _ r; rfl
    | cons q l ih =>
      intro h r
      obtain ⟨v, hv, -⟩ := h q (by simp)
      rw [List.cons_append, pairs]
      simp [hv, Par.string, ih fun q hq => h q (by simp [hq])]
  have e2 : pairs true (p :: post) = (p.name, ['N', 'A', '('] ++ p.soft ++ ')' :: []) :: pairs true post := by
    rw [pairs]
    simp [Par.string, hg]
  rw [e pre hp, e2]
  refine value_cut ci n label type p.name _ [] _ _ ?_ hl ht ?_ hq
  · have := List.length_filterMap_le (fun q : Par => q.given.map fun v => (q.name, v)) pre
    omega
  · intro a ha
    obtain ⟨q, hq1, hq2⟩ := List.mem_filterMap.mp ha
    obtain ⟨v, hv, rfl⟩ := Option.map_eq_some_iff.mp hq2
    obtain ⟨v', h1, h2⟩ := hp q hq1
    rw [h1] at hv
    cases hv
    exact h2

/-- C109 fails: a value in quotes or braces without a name is given to a null pointer -/
theorem unnamed_null (ci : Bool) (n : ℕ) (label type r : List Char) (c : Char) (hc : c = '\'' ∨ c = '{') (hl : Plain label) (ht : Plain type) :
    readCard ci n (label ++ ' ' :: type ++ [' ', '('] ++ c :: r) = .null := by
  have e1 : word (label ++ ' ' :: type ++ [' ', '('] ++ c :: r) = (label, type ++ ' ' :: '(' :: c :: r) := by
    rw [show label ++ ' ' :: type ++ [' ', '('] ++ c :: r = label ++ (' ' :: (type ++ ' ' :: '(' :: c :: r)) by simp, word_plain label _ hl rfl]
    exact congrArg (Prod.mk label) (skipcom_gap ⟨[' '], false, []⟩ ⟨by simp [isSpace], by simp⟩ _ (ht.next (' ' :: '(' :: c :: r)))
  have hN : Next ('(' :: c :: r) := .inr ⟨'(', c :: r, rfl, by decide, by decide⟩
  have e2 : word (type ++ ' ' :: '(' :: c :: r) = (type, '(' :: c :: r) := by
    rw [word_plain type _ ht rfl]
    exact congrArg (Prod.mk type) (skipcom_gap ⟨[' '], false, []⟩ ⟨by simp [isSpace], by simp⟩ _ hN)
  have e3 : umatch ci ['p','a','r','a','m','s',':'] ('(' :: c :: r) = .fail :=
    umatch_lits_fail ci _ [] ('(' :: c :: r) (by decide) (by decide) rfl hN (by
      rintro ⟨m, r, e, hs⟩
      have : m = [] := by simpa using congrArg (fun l => l.take m.length) e.symm
      subst this
      cases hs)
  have e4 : skip1b ['('] ('(' :: c :: r) = (true, c :: r) := by
    rw [skip1b_hit _ _ _ (by decide) (by decide), skipbl_cons _ (by rcases hc with rfl | rfl <;> decide)]
  have e5 : match1 ['\'', '{'] (c :: r) = true := by rcases hc with rfl | rfl <;> rfl
  unfold readCard
  simp only [e1, e2, e3, e4, e5, if_true]

/-! ## examples -/

private theorem pair_of (a v : List Char) (h : (a != [] && a.all isGraph && !a.contains '=' && a.head?.all (fun c =>
      ![')', ',', '(', '\'', '{', '+', '-', '.', '0', '1', '2', '3', '4', '5', '6', '7', '8', '9'].contains c) &&
      v != [] && v.all (fun c => isGraph c && ![',', '=', ';', ')'].contains c) && v.head?.all fun c => !['"', '\'', '{', '('].contains c) = true) :
    Pair (a, v) := by
  simp only [Bool.and_eq_true, bne_iff_ne, ne_eq, List.all_eq_true, Bool.not_eq_true', List.contains_eq_mem, decide_eq_false_iff_not, Option.all_eq_true] at h
  obtain ⟨⟨⟨⟨⟨⟨h1, h2⟩, h3⟩, h4⟩, h5⟩, h6⟩, h7⟩ := h
  refine ⟨⟨h1, h2, h3, fun c hc hm => h4 c hc (List.mem_cons_of_mem _ hm)⟩, fun hc => h4 ')' hc List.mem_cons_self, ⟨h5, fun c hc => (h6 c hc).1, fun c hc => (h6 c hc).2, h7⟩⟩

example : readCard true 5 (listCard ⟨['d', '1'], ['d'], [(['i', 's'], ['1', '.', 'p']), (['r', 's'], ['2'])]⟩) =
    .card ⟨['d', '1'], ['d'], [(['i', 's'], ['1', '.', 'p']), (['r', 's'], ['2'])]⟩ :=
  card_partial true 5 _ (by simp) (plain_of _ (by decide)) (plain_of _ (by decide)) (by
    intro a ha
    simp only [List.mem_cons, List.not_mem_nil, or_false] at ha
    rcases ha with rfl | rfl <;> exact pair_of _ _ (by decide))

/-- `delay` not given, `vmax` given as 10: `vmax` is lost -/
example : readCard true 20 (listCard ⟨['c'], ['l', 'o', 'g', 'i', 'c'], pairs true
      [⟨['d', 'e', 'l', 'a', 'y'], none, ['1', '.', 'n']⟩, ⟨['v', 'm', 'a', 'x'], some ['1', '0', '.'], ['5', '.']⟩]⟩) =
    .card ⟨['c'], ['l', 'o', 'g', 'i', 'c'], [(['d', 'e', 'l', 'a', 'y'], ['N', 'A', '(', '1', '.', 'n'])]⟩ :=
  logic_cut true 20 _ _ [] _ _ (by simp) (plain_of _ (by decide)) (plain_of _ (by decide)) (by simp) rfl (pair_of _ _ (by decide))

example : readCard true 20 (listCard ⟨['c'], ['d'], pairs false [⟨['i', 's'], none, ['1']⟩, ⟨['n'], some ['2'], ['1']⟩]⟩) = .card ⟨['c'], ['d'], [(['n'], ['2'])]⟩ :=
  given_partial true 20 _ _ _ (by simp) (plain_of _ (by decide)) (plain_of _ (by decide)) (by
    intro p hp v hv
    simp only [List.mem_cons, List.not_mem_nil, or_false] at hp
    rcases hp with rfl | rfl
    · cases hv
    · cases hv; exact pair_of _ _ (by decide))

example : readCard true 20 (listCard ⟨['c'], ['d'], pairs true [⟨['n'], some ['2'], ['1']⟩]⟩) = .card ⟨['c'], ['d'], [(['n'], ['2'])]⟩ :=
  logic_partial true 20 _ _ _ (by simp) (plain_of _ (by decide)) (plain_of _ (by decide)) (by
    intro p hp
    rw [List.mem_singleton.mp hp]
    exact ⟨_, rfl, pair_of _ _ (by decide)⟩)

example : readCard true 3 (['m', ' ', 'd', ' ', '(', '{', '1', '}', ')']) = .null :=
  unnamed_null true 3 ['m'] ['d'] ['1', '}', ')'] '{' (.inr rfl) (plain_of _ (by decide)) (plain_of _ (by decide))

end Gnucap.ModelLine.Props
