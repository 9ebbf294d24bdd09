import Verif.PlugModel
import Mathlib.Tactic
import Mathlib.Data.Char
import Mathlib.Data.List.Lex

/-!
# C96: plugins are found along the path, loaded as long as they are attached, and never taken from a circuit
-/
namespace Gnucap.Plug
variable {L : Type}

/-! ## Search -/

/-- a file of a directory: no directory is the one we are in; one '/' between -/
inductive In : Name → Name → Name → Prop where
  | here {f} : In [] f f
  | slash {d f} : In (d ++ ['/']) f (d ++ ['/'] ++ f)
  | plain {d c f} : c ≠ '/' → In (d ++ [c]) f (d ++ [c] ++ '/' :: f)

/-- a path is a list of directories with ':' between -/
def pathOf : List Name → List Char
  | [] => []
  | [d] => d
  | d :: e :: ds => d ++ ':' :: pathOf (e :: ds)

theorem in_target {d f t : Name} (h : In d f t) : target d f = t := by
  cases h with
  | here => simp [target]
  | slash => simp [target, endsDir]
  | plain h => simp [target, endsDir, h]

theorem in_exists (d f : Name) : ∃ t, In d f t := by
  rcases List.eq_nil_or_concat d with rfl | ⟨d, c, rfl⟩
  · exact ⟨_, .here⟩
  · by_cases hc : c = '/'
    · subst hc; exact ⟨_, by simpa using In.slash⟩
    · exact ⟨_, by simpa using In.plain hc⟩

theorem item_last {d : Name} (h : ':' ∉ d) : item d = (d, []) := by
  induction d with
  | nil => rfl
  | cons c d ih =>
    have hc : c ≠ ':' := by rintro rfl; simp at h
    rw [item.eq_def]
    split
    · simp_all
    · simp_all
    · rename_i h'; cases h'; rw [ih (by simp_all)]

theorem item_more {d : Name} (h : ':' ∉ d) (p : List Char) : item (d ++ ':' :: p) = (d, ':' :: p) := by
  induction d with
  | nil => rfl
  | cons c d ih =>
    have hc : c ≠ ':' := by rintro rfl; simp at h
    rw [item.eq_def]
    split
    · simp_all
    · simp_all
    · rename_i h'; cases h'; have := ih (by simp_all); simp only [List.append_eq] at *; rw [this]

theorem find_one (ok : Name → Bool) (f : Name) {d t : Name} (hd : ':' ∉ d) (hne : d ≠ []) (ht : In d f t) :
    findfile ok f d = if ok t then t else [] := by
  rw [findfile, if_neg hne]
  have h1 : target (item d).1 f = t := by rw [item_last hd]; exact in_target ht
  simp only [h1]
  split
  · rfl
  · split
    · rfl
    · rename_i h; rw [item_last hd] at h; cases h

theorem find_more (ok : Name → Bool) (f : Name) {d t : Name} (hd : ':' ∉ d) (p : List Char) (ht : In d f t) :
    findfile ok f (d ++ ':' :: p) = if ok t then t else findfile ok f p := by
  rw [findfile, if_neg (by simp)]
  have h1 : target (item (d ++ ':' :: p)).1 f = t := by rw [item_more hd p]; exact in_target ht
  simp only [h1]
  split
  · rfl
  · split
    · rename_i h; rw [item_more hd p] at h; cases h
    · rename_i h; rw [item_more hd p] at h; cases h; rfl

/-- **the first directory of the path with such a file** (an empty one is the directory we are in, but not the last) -/
theorem found_first (ok : Name → Bool) (f : Name) : ∀ (pre : List Name) (d : Name) (post : List Name) (t : Name), (∀ e ∈ pre, ':' ∉ e) → ':' ∉ d →
    (d ≠ [] ∨ post ≠ []) → (∀ e ∈ pre, ∀ t, In e f t → ok t = false) → In d f t → ok t = true → findfile ok f (pathOf (pre ++ d :: post)) = t
  | [], d, [], t, _, hd, hne, _, ht, hok => by
    simp only [List.nil_append, pathOf]
    rw [find_one ok f hd (by simpa using hne) ht, hok]; rfl
  | [], d, e :: post, t, _, hd, _, _, ht, hok => by
    simp only [List.nil_append, pathOf]
    rw [find_more ok f hd _ ht, hok]; rfl
  | a :: pre, d, post, t, hp, hd, hne, hno, ht, hok => by
    obtain ⟨ta, hta⟩ := in_exists a f
    have hrec := found_first ok f pre d post t (fun e he => hp e (by simp [he])) hd hne (fun e he => hno e (by simp [he])) ht hok
    have hx : pathOf (a :: pre ++ d :: post) = a ++ ':' :: pathOf (pre ++ d :: post) := by
      cases pre <;> simp [pathOf]
    rw [hx, find_more ok f (hp a (by simp)) _ hta, hno a (by simp) ta hta]
    simpa using hrec

/-- nothing in any of them: nothing -/
theorem found_none (ok : Name → Bool) (f : Name) : ∀ (ds : List Name), (∀ e ∈ ds, ':' ∉ e) → (∀ e ∈ ds, ∀ t, In e f t → ok t = false) →
    findfile ok f (pathOf ds) = []
  | [], _, _ => by rw [pathOf, findfile]; rfl
  | [d], hd, hno => by
    obtain ⟨t, ht⟩ := in_exists d f
    by_cases h : d = []
    · subst h; rw [pathOf, findfile]; rfl
    · rw [pathOf, find_one ok f (hd d (by simp)) h ht, hno d (by simp) t ht]; rfl
  | d :: e :: ds, hd, hno => by
    obtain ⟨t, ht⟩ := in_exists d f
    have hrec := found_none ok f (e :: ds) (fun a ha => hd a (by simp [ha])) (fun a ha => hno a (by simp [ha]))
    rw [pathOf, find_more ok f (hd d (by simp)) _ ht, hno d (by simp) t ht]
    simpa using hrec

/-- **the directory we are in is not looked at when it is the empty item at the end of the path** -/
theorem last_empty_wrong (ok : Name → Bool) (f : Name) (ds : List Name) (hds : ds ≠ []) (hd : ∀ e ∈ ds, ':' ∉ e)
    (hno : ∀ e ∈ ds, ∀ t, In e f t → ok t = false) : findfile ok f (pathOf (ds ++ [[]])) = [] := by
  induction ds with
  | nil => exact absurd rfl hds
  | cons d ds ih =>
    obtain ⟨t, ht⟩ := in_exists d f
    have hx : pathOf (d :: ds ++ [[]]) = d ++ ':' :: pathOf (ds ++ [[]]) := by cases ds <;> simp [pathOf]
    rw [hx, find_more ok f (hd d (by simp)) _ ht, hno d (by simp) t ht]
    cases ds with
    | nil => simp only [List.nil_append, pathOf]; rw [findfile]; rfl
    | cons e ds => simpa using ih (by simp) (fun a ha => hd a (by simp [ha])) (fun a ha => hno a (by simp [ha]))

example : findfile (fun n => n == ['u', '/', 'p'] || n == ['p']) ['p'] (pathOf [['x'], ['u', '/'], []]) = ['u', '/', 'p'] ∧
    findfile (fun n => n == ['p']) ['p'] (pathOf [['x'], [], ['u']]) = ['p'] ∧
    findfile (fun n => n == ['p']) ['p'] (pathOf [['x'], ['u'], []]) = [] :=
  ⟨found_first _ _ [['x']] ['u', '/'] [[]] _ (by simp) (by simp) (by simp)
      (by intro e he t ht; simp only [List.mem_singleton] at he; subst he; rw [← in_target ht]; decide +kernel) (In.slash (d := ['u'])) (by decide +kernel),
    found_first _ _ [['x']] [] [['u']] _ (by simp) (by simp) (by simp)
      (by intro e he t ht; simp only [List.mem_singleton] at he; subst he; rw [← in_target ht]; decide +kernel) In.here (by decide +kernel),
    last_empty_wrong _ _ [['x'], ['u']] (by simp) (by simp) (by
      intro e he t ht
      simp only [List.mem_cons, List.not_mem_nil, or_false] at he
      rcases he with rfl | rfl <;> (rw [← in_target ht]; decide +kernel))⟩

/-! ## The list -/

variable [DecidableEq L]

theorem any_no {n : Name} {t : Map L} (h : ¬ t.any (fun e => e.1 == n) = true) : ∀ e ∈ t, e.1 ≠ n := by
  intro e he hn
  exact h (List.any_eq_true.mpr ⟨e, he, by simp [hn]⟩)

theorem any_yes {n : Name} {t : Map L} (h : t.any (fun e => e.1 == n) = true) : ∃ e ∈ t, e.1 = n := by
  obtain ⟨e, he, hn⟩ := List.any_eq_true.mp h
  exact ⟨e, he, by simpa using hn⟩

/-- how many names hold a library -/
def holds (l : L) (t : Map L) : ℕ := (t.filter (fun e => decide (e.2 = some l))).length

/-- the list is a map, sorted; every library is counted once for each name that holds it -/
structure Inv (s : St L) : Prop where
  sorted : s.list.Pairwise (fun a b => a.1 < b.1)
  counted : ∀ l, s.count l = holds l s.list

def one (p : Prop) [Decidable p] : ℕ := if p then 1 else 0

theorem holds_cons (l : L) (e : Name × Option L) (t : Map L) : holds l (e :: t) = one (e.2 = some l) + holds l t := by
  unfold holds one
  by_cases h : e.2 = some l <;> simp [h] <;> omega

theorem look_absent {n : Name} : ∀ {t : Map L}, (∀ e ∈ t, e.1 ≠ n) → look n t = none
  | [], _ => rfl
  | (m, h) :: t, hn => by
    have h1 : m ≠ n := hn (m, h) (by simp)
    rw [look, if_neg h1]; exact look_absent (fun e he => hn e (by simp [he]))

theorem look_insert {n m : Name} {h : Option L} : ∀ {t : Map L}, (∀ e ∈ t, e.1 ≠ n) → look m (insert n h t) = if m = n then h else look m t
  | [], _ => by simp [insert, look, eq_comm]
  | (k, g) :: t, hn => by
    have h1 : k ≠ n := hn (k, g) (by simp)
    have ih := look_insert (m := m) (h := h) (t := t) (fun e he => hn e (by simp [he]))
    unfold insert
    split
    · simp only [look]; by_cases hm : m = n
      · simp [hm]
      · simp [hm, Ne.symm hm]
    · simp only [look, ih]; by_cases hm : m = n
      · subst hm; simp [h1]
      · simp [hm]

theorem look_map {n m : Name} {h : Option L} : ∀ {t : Map L}, (∃ e ∈ t, e.1 = n) →
    look m (t.map (fun e => if e.1 = n then (n, h) else e)) = if m = n then h else look m t
  | [], hn => by simp at hn
  | (k, g) :: t, hn => by
    by_cases hk : k = n
    · subst hk
      simp only [List.map_cons, if_true, look]
      by_cases hm : m = k
      · simp [hm]
      · rw [if_neg (Ne.symm hm), if_neg hm, if_neg (Ne.symm hm)]
        clear hn
        induction t with
        | nil => rfl
        | cons e t ih =>
          obtain ⟨e1, e2⟩ := e
          by_cases he : e1 = k
          · subst he; simp only [List.map_cons, if_true, look, if_neg (Ne.symm hm)]; exact ih
          · simp only [List.map_cons, if_neg he, look]; split
            · rfl
            · exact ih
    · have hn' : ∃ e ∈ t, e.1 = n := by
        obtain ⟨e, he, hen⟩ := hn
        rcases List.mem_cons.mp he with rfl | he
        · exact absurd hen hk
        · exact ⟨e, he, hen⟩
      have ih := look_map (m := m) (h := h) hn'
      simp only [List.map_cons, if_neg hk, look, ih]
      by_cases hm : m = n
      · subst hm; simp [hk]
      · simp [hm]

theorem look_put (n m : Name) (h : Option L) (t : Map L) : look m (put n h t) = if m = n then h else look m t := by
  unfold put
  split
  · rename_i hx; exact look_map (any_yes hx)
  · rename_i hx; exact look_insert (any_no hx)

theorem sorted_insert {n : Name} {h : Option L} : ∀ {t : Map L}, t.Pairwise (fun a b => a.1 < b.1) → (∀ e ∈ t, e.1 ≠ n) →
    (insert n h t).Pairwise (fun a b => a.1 < b.1) ∧ ∀ e ∈ insert n h t, e.1 = n ∨ e ∈ t
  | [], _, _ => by simp [insert]
  | (k, g) :: t, hs, hn => by
    have hk : k ≠ n := hn (k, g) (by simp)
    obtain ⟨ih1, ih2⟩ := sorted_insert (h := h) (List.pairwise_cons.mp hs).2 (fun e he => hn e (by simp [he]))
    unfold insert
    split
    · rename_i hlt
      refine ⟨List.pairwise_cons.mpr ⟨?_, hs⟩, fun e he => by rcases List.mem_cons.mp he with rfl | he; exacts [.inl rfl, .inr he]⟩
      intro e he
      rcases List.mem_cons.mp he with rfl | he
      · exact hlt
      · exact lt_trans hlt ((List.pairwise_cons.mp hs).1 e he)
    · rename_i hlt
      have hkn : k < n := lt_of_le_of_ne (not_lt.mp hlt) hk
      refine ⟨List.pairwise_cons.mpr ⟨?_, ih1⟩, ?_⟩
      · intro e he
        rcases ih2 e he with h | h
        · show k < e.1; rw [h]; exact hkn
        · exact (List.pairwise_cons.mp hs).1 e h
      · intro e he
        rcases List.mem_cons.mp he with rfl | he
        · simp
        · rcases ih2 e he with h | h
          · exact .inl h
          · exact .inr (by simp [h])

theorem sorted_put {n : Name} {h : Option L} {t : Map L} (hs : t.Pairwise (fun a b => a.1 < b.1)) : (put n h t).Pairwise (fun a b => a.1 < b.1) := by
  unfold put
  split
  · rw [List.pairwise_map]
    refine hs.imp ?_
    intro a b hab
    have key : ∀ a : Name × Option L, (if a.1 = n then (n, h) else a).1 = a.1 := by intro a; split <;> simp_all
    rw [key, key]; exact hab
  · rename_i hx; exact (sorted_insert hs (any_no hx)).1

theorem holds_insert {l : L} {n : Name} {h : Option L} : ∀ {t : Map L}, holds l (insert n h t) = holds l t + one (h = some l)
  | [] => by simp [insert, holds_cons]; simp [holds]
  | (k, g) :: t => by
    unfold insert
    split
    · simp only [holds_cons]; omega
    · simp only [holds_cons, holds_insert (t := t)]; omega

/-- a name gets another library -/
theorem holds_put {l : L} {n : Name} {h : Option L} {t : Map L} (hs : t.Pairwise (fun a b => a.1 < b.1)) :
    holds l (put n h t) + one (look n t = some l) = holds l t + one (h = some l) := by
  unfold put
  split
  · rename_i hx
    replace hx := any_yes hx
    induction t with
    | nil => simp at hx
    | cons e t ih =>
      obtain ⟨k, g⟩ := e
      have hs' := List.pairwise_cons.mp hs
      by_cases hk : k = n
      · subst hk
        have hid : t.map (fun e => if e.1 = k then (k, h) else e) = t := by
          conv_rhs => rw [← List.map_id t]
          refine List.map_congr_left ?_
          intro e he
          have : k < e.1 := hs'.1 e he
          rw [if_neg (ne_of_gt this)]; rfl
        simp only [List.map_cons, if_true, holds_cons, hid, look]; omega
      · have hx' : ∃ e ∈ t, e.1 = n := by
          obtain ⟨e, he, hen⟩ := hx
          rcases List.mem_cons.mp he with rfl | he
          · exact absurd hen hk
          · exact ⟨e, he, hen⟩
        have := ih hs'.2 hx'
        simp only [List.map_cons, if_neg hk, holds_cons, look]; omega
  · rename_i hx
    rw [holds_insert, look_absent (any_no hx)]
    simp [one]

/-! ## The counts -/

theorem look_holds {l : L} {n : Name} {t : Map L} (hs : t.Pairwise (fun a b => a.1 < b.1)) (h : look n t = some l) : 1 ≤ holds l t := by
  have := holds_put (l := l) (n := n) (h := none) hs
  rw [h] at this
  simp [one] at this
  omega

theorem inv_close {s : St L} (hi : Inv s) {n : Name} {h : L} (hl : look n s.list = some h) : Inv ⟨put n none s.list, dlclosed s.count h⟩ := by
  refine ⟨sorted_put hi.sorted, fun l => ?_⟩
  have h1 := holds_put (l := l) (n := n) (h := none) hi.sorted
  have h2 := look_holds hi.sorted hl
  rw [hl] at h1
  simp only [dlclosed, hi.counted]
  by_cases hh : l = h
  · subst hh; simp [one] at h1 ⊢; omega
  · simp [one, hh, Ne.symm hh] at h1 ⊢; omega

theorem inv_open {s : St L} (hi : Inv s) {n : Name} {h : L} (hl : look n s.list = none) : Inv ⟨put n (some h) s.list, dlopened s.count h⟩ := by
  refine ⟨sorted_put hi.sorted, fun l => ?_⟩
  have h1 := holds_put (l := l) (n := n) (h := some h) hi.sorted
  rw [hl] at h1
  simp only [dlopened, hi.counted]
  by_cases hh : l = h
  · subst hh; simp [one] at h1 ⊢; omega
  · simp [one, hh, Ne.symm hh] at h1 ⊢; omega

theorem inv_null {s : St L} (hi : Inv s) {n : Name} (hl : look n s.list = none) : Inv ⟨put n none s.list, s.count⟩ := by
  refine ⟨sorted_put hi.sorted, fun l => ?_⟩
  have h1 := holds_put (l := l) (n := n) (h := none) hi.sorted
  rw [hl] at h1
  simp [one] at h1
  simp [h1, hi.counted]

theorem inv_attach (S : Sys L) (e : Bool) (n : Name) {s : St L} (hi : Inv s) : Inv (attachFile S e n s).2 := by
  unfold attachFile
  rcases hl : look n s.list with _ | h
  · have h0 := inv_null hi hl
    dsimp only
    rcases S.lib n with _ | l
    · exact h0
    · exact inv_open h0 (by simp [look_put])
  · dsimp only
    split
    · have h0 := inv_close hi hl
      rcases S.lib n with _ | l
      · exact h0
      · exact inv_open h0 (by simp [look_put])
    · exact hi

theorem inv_detach (e : Bool) (n : Name) {s : St L} (hi : Inv s) : Inv (detachFile e n s).2 := by
  unfold detachFile
  split
  · rcases hl : look n s.list with _ | h
    · exact inv_null hi hl
    · exact inv_close hi hl
  · exact hi

theorem inv_each {f : Name → St L → Option Err × St L} (hf : ∀ n s, Inv s → Inv (f n s).2) : ∀ (ns : List Name) (s : St L), Inv s → Inv (each f ns s).2
  | [], _, hi => hi
  | n :: ns, s, hi => by
    have h1 := hf n s hi
    unfold each
    rcases hx : f n s with ⟨_ | e, s'⟩
    · rw [hx] at h1; exact inv_each hf ns s' h1
    · rw [hx] at h1; exact h1

theorem close_all : ∀ (t : Map L) (c : L → ℕ), (closeAll t c).1 = t.map (fun e => (e.1, none)) ∧ ∀ l, (closeAll t c).2 l = c l - holds l t
  | [], c => by simp [closeAll, holds]
  | (n, some h) :: t, c => by
    obtain ⟨h1, h2⟩ := close_all t (dlclosed c h)
    refine ⟨by simp [closeAll, h1], fun l => ?_⟩
    simp only [closeAll, h2, holds_cons, dlclosed]
    by_cases hh : l = h
    · subst hh; simp [one]; omega
    · simp [one, hh, Ne.symm hh]
  | (n, none) :: t, c => by
    obtain ⟨h1, h2⟩ := close_all t c
    exact ⟨by simp [closeAll, h1], fun l => by simp [closeAll, h2, holds_cons, one]⟩

theorem inv_run (S : Sys L) (path : List Char) (c : Cmd) {s : St L} (hi : Inv s) : Inv (run S path c s).2 := by
  have ho : ∀ (f : Name → St L → Option Err × St L), (∀ n s, Inv s → Inv (f n s).2) → ∀ n, Inv (loadOr S path f n s).2 := by
    intro f hf n
    unfold loadOr
    split
    · exact hi
    · split
      · exact inv_each hf _ _ hi
      · exact hf _ _ hi
  cases c with
  | attach n e => exact ho _ (fun n s => inv_attach S e n) n
  | detach n e => exact ho _ (fun n s => inv_detach e n) n
  | detachAll e =>
    unfold run
    dsimp only
    split
    · obtain ⟨h1, h2⟩ := close_all s.list s.count
      refine ⟨?_, fun l => ?_⟩
      · dsimp only; rw [h1, List.pairwise_map]; exact hi.sorted
      · dsimp only; rw [h2, h1, hi.counted]
        rw [Nat.sub_self, eq_comm]
        unfold holds
        rw [List.length_eq_zero_iff, List.filter_eq_nil_iff]
        intro a ha
        obtain ⟨e, _, rfl⟩ := List.mem_map.mp ha
        simp
    · exact hi

/-- **after any commands a library is counted once for each name that holds it** -/
theorem counted (path : List Char) (cs : List (Sys L × Cmd)) : Inv (runs path cs (init : St L)) := by
  have key : ∀ (cs : List (Sys L × Cmd)) (s : St L), Inv s → Inv (runs path cs s) := by
    intro cs
    induction cs with
    | nil => intro s hi; exact hi
    | cons c cs ih => obtain ⟨S, c⟩ := c; intro s hi; exact ih _ (inv_run S path c hi)
  exact key cs init ⟨by simp [init], fun l => by simp [init, holds]⟩

theorem holds_look {l : L} : ∀ {t : Map L}, t.Pairwise (fun a b => a.1 < b.1) → (0 < holds l t ↔ ∃ n, look n t = some l)
  | [], _ => by simp [holds, look]
  | (m, h) :: t, hs => by
    have hs' := List.pairwise_cons.mp hs
    have ih := holds_look (l := l) hs'.2
    rw [holds_cons]
    constructor
    · intro hp
      by_cases hh : h = some l
      · exact ⟨m, by simp [look, hh]⟩
      · obtain ⟨n, hn⟩ := ih.mp (by simp [one, hh] at hp; omega)
        refine ⟨n, ?_⟩
        have hne : m ≠ n := by
          rintro rfl
          rw [look_absent (fun e he => ne_of_gt (hs'.1 e he))] at hn; cases hn
        rw [look, if_neg hne]; exact hn
    · rintro ⟨n, hn⟩
      rw [look] at hn
      split at hn
      · simp [one, hn]
      · have := ih.mpr ⟨n, hn⟩; omega

/-- **a library is loaded if and only if a name holds it; it is listed then** -/
theorem loaded_iff (path : List Char) (cs : List (Sys L × Cmd)) (l : L) :
    let s := runs path cs (init : St L)
    (0 < s.count l ↔ ∃ n, look n s.list = some l) := by
  intro s
  have hi := counted path cs
  rw [hi.counted]; exact holds_look hi.sorted

theorem look_mem {n : Name} {l : L} : ∀ {t : Map L}, t.Pairwise (fun a b => a.1 < b.1) → (look n t = some l ↔ (n, some l) ∈ t)
  | [], _ => by simp [look]
  | (m, h) :: t, hs => by
    have hs' := List.pairwise_cons.mp hs
    have ih := look_mem (n := n) (l := l) hs'.2
    rw [look]
    split
    · rename_i hm; subst hm
      constructor
      · rintro rfl; simp
      · intro hx
        rcases List.mem_cons.mp hx with h1 | h1
        · cases h1; rfl
        · exact absurd (hs'.1 _ h1) (lt_irrefl _)
    · rename_i hm
      rw [ih]
      constructor
      · intro hx; exact List.mem_cons_of_mem _ hx
      · intro hx
        rcases List.mem_cons.mp hx with h1 | h1
        · cases h1; exact absurd rfl hm
        · exact h1

/-- **the list shows the names that hold a library, each once, in order** -/
theorem listed_right (path : List Char) (cs : List (Sys L × Cmd)) :
    let s := runs path cs (init : St L)
    (listed s).Pairwise (· < ·) ∧ ∀ n, n ∈ listed s ↔ ∃ l, look n s.list = some l := by
  intro s
  have hi : Inv s := counted path cs
  refine ⟨?_, fun n => ?_⟩
  · unfold listed
    rw [List.pairwise_map]
    exact hi.sorted.filter _
  · unfold listed
    simp only [List.mem_map, List.mem_filter, Prod.exists]
    constructor
    · rintro ⟨a, o, ⟨hm, ho⟩, rfl⟩
      obtain ⟨l, rfl⟩ := Option.isSome_iff_exists.mp ho
      exact ⟨l, (look_mem hi.sorted).mpr hm⟩
    · rintro ⟨l, hl⟩
      exact ⟨n, some l, ⟨(look_mem hi.sorted).mp hl, rfl⟩, rfl⟩

/-- **`detach_all` without a circuit: nothing is loaded** -/
theorem all_gone (path : List Char) (cs : List (Sys L × Cmd)) (S : Sys L) :
    let s := runs path (cs ++ [(S, .detachAll true)]) (init : St L)
    (∀ l, s.count l = 0) ∧ listed s = [] := by
  have happ : ∀ (a b : List (Sys L × Cmd)) (s : St L), runs path (a ++ b) s = runs path b (runs path a s) := by
    intro a
    induction a with
    | nil => intro b s; rfl
    | cons x a ih => intro b s; obtain ⟨S, c⟩ := x; exact ih b _
  intro s
  have hs : s = (run S path (.detachAll true) (runs path cs init)).2 := by
    show runs path _ _ = _
    rw [happ]; rfl
  have hi := counted (L := L) path cs
  obtain ⟨h1, h2⟩ := close_all (runs path cs (init : St L)).list (runs path cs (init : St L)).count
  rw [hs]
  simp only [run, if_true]
  refine ⟨fun l => by rw [h2, hi.counted]; omega, ?_⟩
  unfold listed
  simp only [h1]
  rw [List.map_eq_nil_iff, List.filter_eq_nil_iff]
  intro a ha
  obtain ⟨e, _, rfl⟩ := List.mem_map.mp ha
  simp

/-! ## One file -/

/-- **attach, then detach: the counts are what they were, and the name holds nothing** -/
theorem attach_detach (S : Sys L) (e : Bool) {n : Name} {l : L} {s : St L} (hn : look n s.list = none) (hl : S.lib n = some l) :
    (attachFile S e n s).1 = none ∧ look n (attachFile S e n s).2.list = some l ∧ (attachFile S e n s).2.count l = s.count l + 1 ∧
    (detachFile true n (attachFile S e n s).2).1 = none ∧ (∀ k, (detachFile true n (attachFile S e n s).2).2.count k = s.count k) ∧
    ∀ m, look m (detachFile true n (attachFile S e n s).2).2.list = look m s.list := by
  have ha : attachFile S e n s = (none, ⟨put n (some l) (put n none s.list), dlopened s.count l⟩) := by simp [attachFile, hn, hl]
  have hk : look n (put n (some l) (put n none s.list)) = some l := by simp [look_put]
  have hd : detachFile true n (attachFile S e n s).2 =
      (none, ⟨put n none (put n (some l) (put n none s.list)), dlclosed (dlopened s.count l) l⟩) := by
    rw [ha]; simp [detachFile, hk]
  rw [hd, ha]
  refine ⟨rfl, hk, by simp [dlopened], rfl, fun k => ?_, fun m => ?_⟩
  · simp only [dlclosed, dlopened]; split <;> simp
  · simp only [look_put]
    by_cases h : m = n
    · simp [h, hn]
    · simp [h]

/-- what one file does when there is a circuit -/
theorem file_circuit (S : Sys L) (n : Name) (s : St L) :
    ((∀ k, s.count k ≤ (attachFile S false n s).2.count k) ∧ ∀ m l, look m s.list = some l → look m (attachFile S false n s).2.list = some l) ∧
    detachFile false n s = (some .circuit, s) := by
  refine ⟨?_, by simp [detachFile]⟩
  unfold attachFile
  rcases hl : look n s.list with _ | h
  · dsimp only
    rcases S.lib n with _ | l
    · refine ⟨fun k => le_refl _, fun m l hm => ?_⟩
      simp only [look_put]
      by_cases h : m = n
      · subst h; rw [hl] at hm; cases hm
      · simpa [h] using hm
    · refine ⟨fun k => by simp only [dlopened]; split <;> omega, fun m l' hm => ?_⟩
      simp only [look_put]
      by_cases h : m = n
      · subst h; rw [hl] at hm; cases hm
      · simpa [h] using hm
  · simp

theorem each_circuit {f : Name → St L → Option Err × St L} (R : St L → St L → Prop) (hr : ∀ s, R s s) (ht : ∀ a b c, R a b → R b c → R a c)
    (hf : ∀ n s, R s (f n s).2) : ∀ (ns : List Name) (s : St L), R s (each f ns s).2
  | [], s => hr s
  | n :: ns, s => by
    have h1 := hf n s
    unfold each
    rcases hx : f n s with ⟨_ | e, s'⟩
    · rw [hx] at h1; exact ht _ _ _ h1 (each_circuit R hr ht hf ns s')
    · rw [hx] at h1; exact h1

/-- whether there is no circuit when a command comes -/
def Cmd.empty : Cmd → Bool
  | .attach _ e => e
  | .detach _ e => e
  | .detachAll e => e

/-- **with a circuit no command takes a library away, and every name keeps what it holds** -/
theorem circuit_keeps (S : Sys L) (path : List Char) (c : Cmd) (hc : c.empty = false) (s : St L) :
    (∀ k, s.count k ≤ (run S path c s).2.count k) ∧ ∀ m l, look m s.list = some l → look m (run S path c s).2.list = some l := by
  let R : St L → St L → Prop := fun a b => (∀ k, a.count k ≤ b.count k) ∧ ∀ m l, look m a.list = some l → look m b.list = some l
  have hr : ∀ s, R s s := fun s => ⟨fun _ => le_refl _, fun _ _ h => h⟩
  have ht : ∀ a b c, R a b → R b c → R a c := fun a b c h1 h2 => ⟨fun k => le_trans (h1.1 k) (h2.1 k), fun m l h => h2.2 m l (h1.2 m l h)⟩
  have ho : ∀ (f : Name → St L → Option Err × St L), (∀ n s, R s (f n s).2) → ∀ n, R s (loadOr S path f n s).2 := by
    intro f hf n
    unfold loadOr
    split
    · exact hr s
    · split
      · exact each_circuit R hr ht hf _ _
      · exact hf _ _
  show R s _
  cases c with
  | attach n e => obtain rfl : e = false := hc; exact ho _ (fun n s => (file_circuit S n s).1) n
  | detach n e =>
    obtain rfl : e = false := hc
    exact ho _ (fun n s => by rw [(file_circuit S n s).2]; exact hr s) n
  | detachAll e => obtain rfl : e = false := hc; exact hr s

/-- the files a directory is asked for: its names that end with `.so` -/
theorem plugins_mem (fs : List Name) (f : Name) : f ∈ plugins fs ↔ f ∈ fs ∧ ∃ g, f = g ++ ['.', 's', 'o'] := by
  have hs : ∀ (n : Name) (t : List Name), ∀ x, x ∈ sortIn n t ↔ x = n ∨ x ∈ t := by
    intro n t
    induction t with
    | nil => intro x; simp [sortIn]
    | cons m t ih =>
      intro x
      unfold sortIn
      split
      · simp
      · simp only [List.mem_cons, ih]; tauto
  have hp : ∀ f : Name, isPlugin f = true ↔ ∃ g, f = g ++ ['.', 's', 'o'] := by
    intro f
    unfold isPlugin
    constructor
    · intro h
      split at h
      · cases h
      · refine ⟨f.take (f.length - suffix.length), ?_⟩
        have : f.drop (f.length - suffix.length) = suffix := by simpa using h
        conv_lhs => rw [← List.take_append_drop (f.length - suffix.length) f, this]
        rfl
    · rintro ⟨g, rfl⟩
      rw [if_neg (by simp [suffix])]
      simp [suffix]
  unfold plugins
  have key : ∀ t : List Name, f ∈ t.foldr sortIn [] ↔ f ∈ t := by
    intro t
    induction t with
    | nil => simp
    | cons a t ih => simp only [List.foldr_cons, hs, ih, List.mem_cons]
  rw [key, List.mem_filter, hp]

/-- and in order -/
theorem plugins_sorted (fs : List Name) : (plugins fs).Pairwise (· ≤ ·) := by
  have hm : ∀ (n : Name) (t : List Name), ∀ x ∈ sortIn n t, x = n ∨ x ∈ t := by
    intro n t
    induction t with
    | nil => intro x; simp [sortIn]
    | cons m t ih =>
      intro x
      unfold sortIn
      split
      · simp
      · intro hx
        rcases List.mem_cons.mp hx with rfl | hx
        · simp
        · rcases ih x hx with h | h
          · exact .inl h
          · exact .inr (by simp [h])
  have hs : ∀ (n : Name) (t : List Name), t.Pairwise (· ≤ ·) → (sortIn n t).Pairwise (· ≤ ·) := by
    intro n t
    induction t with
    | nil => intro _; simp [sortIn]
    | cons m t ih =>
      intro h
      have h' := List.pairwise_cons.mp h
      unfold sortIn
      split
      · rename_i hlt
        refine List.pairwise_cons.mpr ⟨?_, h⟩
        intro x hx
        rcases List.mem_cons.mp hx with rfl | hx
        · exact le_of_lt hlt
        · exact le_trans (le_of_lt hlt) (h'.1 x hx)
      · rename_i hlt
        refine List.pairwise_cons.mpr ⟨?_, ih h'.2⟩
        intro x hx
        rcases hm n t x hx with rfl | hx
        · exact not_lt.mp hlt
        · exact h'.1 x hx
  unfold plugins
  generalize fs.filter isPlugin = t
  induction t with
  | nil => simp
  | cons a t ih => exact hs _ _ ih

/-- a directory without trouble: all its plugins are attached -/
theorem dir_attached (S : Sys L) (e : Bool) : ∀ (ns : List Name) (s : St L), ns.Nodup → (∀ n ∈ ns, look n s.list = none ∧ ∃ l, S.lib n = some l) →
    (each (attachFile S e) ns s).1 = none ∧ ∀ n ∈ ns, look n (each (attachFile S e) ns s).2.list = S.lib n := by
  have keep : ∀ (ns : List Name) (s : St L) (m : Name), m ∉ ns → look m (each (attachFile S e) ns s).2.list = look m s.list := by
    intro ns
    induction ns with
    | nil => intro s m _; rfl
    | cons n ns ih =>
      intro s m hm
      have hmn : m ≠ n := fun h => hm (by simp [h])
      have h1 : look m (attachFile S e n s).2.list = look m s.list := by
        unfold attachFile
        rcases look n s.list with _ | h
        · dsimp only
          rcases S.lib n with _ | l <;> simp [look_put, hmn]
        · dsimp only
          split
          · rcases S.lib n with _ | l <;> simp [look_put, hmn]
          · rfl
      unfold each
      rcases hx : attachFile S e n s with ⟨_ | er, s'⟩
      · rw [hx] at h1; rw [← h1]; exact ih s' m (fun h => hm (by simp [h]))
      · rw [hx] at h1; exact h1
  intro ns
  induction ns with
  | nil => intro s _ _; exact ⟨rfl, by simp⟩
  | cons n ns ih =>
    intro s hnd h
    obtain ⟨hn, l, hl⟩ := h n (by simp)
    have ha : attachFile S e n s = (none, ⟨put n (some l) (put n none s.list), dlopened s.count l⟩) := by simp [attachFile, hn, hl]
    have hnd' := List.nodup_cons.mp hnd
    unfold each
    rw [ha]
    have hrec := ih ⟨put n (some l) (put n none s.list), dlopened s.count l⟩ hnd'.2 (by
      intro m hm
      have hmn : m ≠ n := by rintro rfl; exact hnd'.1 hm
      obtain ⟨h1, h2⟩ := h m (by simp [hm])
      exact ⟨by simp [look_put, hmn, h1], h2⟩)
    refine ⟨hrec.1, ?_⟩
    intro m hm
    rcases List.mem_cons.mp hm with rfl | hm
    · rw [keep ns _ m hnd'.1]; simp [look_put, hl]
    · exact hrec.2 m hm

/-- **a plain name: the plugin of the first directory of the path that has it**, attached or detached -/
theorem name_found (S : Sys L) (e : Bool) (f : Name) (hf : f ≠ []) (h1 : f.head? ≠ some '/') (h2 : f.head? ≠ some '.') (pre : List Name) (d : Name)
    (post : List Name) (t : Name) (hp : ∀ e ∈ pre, ':' ∉ e) (hd : ':' ∉ d) (hne : d ≠ [] ∨ post ≠ []) (hno : ∀ e ∈ pre, ∀ t, In e f t → S.ok t = false)
    (ht : In d f t) (hok : S.ok t = true) (hdir : S.dir t = none) (s : St L) :
    run S (pathOf (pre ++ d :: post)) (.attach f e) s = attachFile S e t s ∧
    run S (pathOf (pre ++ d :: post)) (.detach f e) s = detachFile e t s := by
  have hfind := found_first S.ok f pre d post t hp hd hne hno ht hok
  have htne : t ≠ [] := by
    cases ht with
    | here => exact hf
    | slash => simp
    | plain => simp
  have hfull : full S (pathOf (pre ++ d :: post)) f = some t := by
    unfold full
    rw [if_neg (by simp [h1, h2]), hfind]
    cases t with
    | nil => exact absurd rfl htne
    | cons => rfl
  simp [run, loadOr, hfull, hdir]

/-- a name that begins with '/' or '.' is the file itself -/
theorem path_found (S : Sys L) (path : List Char) (e : Bool) (f : Name) (h : f.head? = some '/' ∨ f.head? = some '.') (hok : S.ok f = true) (s : St L) :
    (S.dir f = none → run S path (.attach f e) s = attachFile S e f s ∧ run S path (.detach f e) s = detachFile e f s) ∧
    ∀ fs, S.dir f = some fs → run S path (.attach f e) s = each (attachFile S e) ((plugins fs).map (fun p => f ++ '/' :: p)) s ∧
      run S path (.detach f e) s = each (detachFile e) ((plugins fs).map (fun p => f ++ '/' :: p)) s := by
  refine ⟨fun hd => ?_, fun fs hd => ?_⟩ <;> simp [run, loadOr, full, h, hok, hd]

/-! ## Where it goes wrong -/

/-- **attaching again what cannot be opened any more takes it away** -/
theorem replace_wrong (S : Sys L) {n : Name} {l : L} {s : St L} (hn : look n s.list = some l) (hl : S.lib n = none) :
    (attachFile S true n s).1 = some .cantOpen ∧ look n (attachFile S true n s).2.list = none ∧ (attachFile S true n s).2.count l = s.count l - 1 := by
  simp [attachFile, hn, hl, look_put, dlclosed]

/-- **the same library by two names: detached by one of them it stays loaded** -/
theorem two_names_wrong (S : Sys L) (e : Bool) {n m : Name} (hnm : n ≠ m) {l : L} {s : St L} (h1 : look n s.list = none)
    (h2 : look m s.list = none) (hn : S.lib n = some l) (hm : S.lib m = some l) :
    let s' := (detachFile true n (attachFile S e m (attachFile S e n s).2).2).2
    look n s'.list = none ∧ 0 < s'.count l := by
  have ha : attachFile S e n s = (none, ⟨put n (some l) (put n none s.list), dlopened s.count l⟩) := by simp [attachFile, h1, hn]
  have hm' : look m (put n (some l) (put n none s.list)) = none := by simp [look_put, Ne.symm hnm, h2]
  have hb : attachFile S e m (attachFile S e n s).2 =
      (none, ⟨put m (some l) (put m none (put n (some l) (put n none s.list))), dlopened (dlopened s.count l) l⟩) := by
    rw [ha]; simp [attachFile, hm', hm]
  rw [hb]
  have hk : look n (put m (some l) (put m none (put n (some l) (put n none s.list)))) = some l := by simp [look_put, hnm]
  simp [detachFile, hk, look_put, dlclosed, dlopened]

/-- **a plugin whose file is gone cannot be detached** -/
theorem removed_wrong (S : Sys L) (path : List Char) (e : Bool) (n : Name) (h : n.head? = some '/' ∨ n.head? = some '.') (hn : S.ok n = false)
    (s : St L) : run S path (.detach n e) s = (some .notFound, s) := by
  simp [run, loadOr, full, h, hn]

/-- **a directory: the first plugin that is not attached stops it, the others stay** -/
theorem dir_detach_wrong {n : Name} (ns : List Name) {s : St L} (hn : look n s.list = none) :
    (each (detachFile true) (n :: ns) s).1 = some .notAttached ∧ (each (detachFile true) (n :: ns) s).2.count = s.count ∧
    ∀ m, look m (each (detachFile true) (n :: ns) s).2.list = look m s.list := by
  have hd : detachFile true n s = (some .notAttached, ⟨put n none s.list, s.count⟩) := by simp [detachFile, hn]
  simp only [each, hd]
  refine ⟨trivial, trivial, fun m => ?_⟩
  rw [look_put]
  by_cases h : m = n
  · simp [h, hn]
  · simp [h]

/-! ## Cases -/

/-- two names of library 1, one of library 2, a directory -/
def sys : Sys ℕ where
  ok n := n.head? = some '.'
  dir n := if n = ['.', 'd'] then some [['b', '.', 's', 'o'], ['x'], ['a', '.', 's', 'o']] else none
  lib n := if n = ['.', 'p'] ∨ n = ['.', '.', 'p'] then some 1 else if n.head? = some '.' ∧ n ≠ ['.', 'q'] then some 2 else none

def ap : Cmd := .attach ['.', 'p'] true
def app2 : Cmd := .attach ['.', '.', 'p'] false
def ad : Cmd := .attach ['.', 'd'] true

/-- `counted`, `loaded_iff`, `listed_right` -/
example : listed (runs [] [(sys, ap), (sys, app2), (sys, ad)] init) =
      [['.', '.', 'p'], ['.', 'd', '/', 'a', '.', 's', 'o'], ['.', 'd', '/', 'b', '.', 's', 'o'], ['.', 'p']] ∧
    (runs [] [(sys, ap), (sys, app2), (sys, ad)] init).count 1 = 2 ∧ (runs [] [(sys, ap), (sys, app2), (sys, ad)] init).count 2 = 2 ∧
    (runs [] [(sys, ap), (sys, app2), (sys, ad), (sys, .detachAll true)] init).count 1 = 0 := by decide +kernel

/-- `attach_detach`, `circuit_keeps` -/
example : look ['.', 'p'] (init : St ℕ).list = none ∧ sys.lib ['.', 'p'] = some 1 ∧ app2.empty = false ∧
    (run sys [] (.detach ['.', 'p'] false) (runs [] [(sys, ap)] init)).1 = some .circuit ∧
    (run sys [] (.attach ['.', 'p'] false) (runs [] [(sys, ap)] init)).1 = some .isLoaded := by decide +kernel

/-- `name_found`: `attach q` with the path `x:.u` -/
example : run { sys with ok := fun n => n == ['.', 'u', '/', 'q'] } (pathOf [['x'], ['.', 'u']]) (.attach ['q'] true) init =
    attachFile { sys with ok := fun n => n == ['.', 'u', '/', 'q'] } true ['.', 'u', '/', 'q'] init :=
  (name_found _ true ['q'] (by simp) (by simp) (by simp) [['x']] ['.', 'u'] [] _ (by simp) (by simp) (by simp)
    (by intro e he t ht; simp only [List.mem_singleton] at he; subst he; rw [← in_target ht]; decide +kernel)
    (In.plain (d := ['.']) (c := 'u') (by simp)) (by decide +kernel) (by decide +kernel) init).1

/-- `path_found` -/
example : sys.ok ['.', 'd'] = true ∧ (run sys [] (.attach ['.', 'd'] true) init).1 = none := by decide +kernel

/-- `plugins_mem`, `plugins_sorted`, `dir_attached` -/
example : plugins [['b', '.', 's', 'o'], ['x'], ['s', 'o'], ['a', '.', 's', 'o']] = [['a', '.', 's', 'o'], ['b', '.', 's', 'o']] ∧
    (each (attachFile sys true) [['.', 'a'], ['.', 'b']] init).1 = none := by decide +kernel

/-- `replace_wrong`: the file is not a library any more -/
example : look ['.', 'p'] (runs [] [(sys, ap)] init).list = some 1 ∧
    (run { sys with lib := fun _ => none } [] ap (runs [] [(sys, ap)] init)).1 = some .cantOpen ∧
    listed (run { sys with lib := fun _ => none } [] ap (runs [] [(sys, ap)] init)).2 = [] := by decide +kernel

/-- `two_names_wrong`, `removed_wrong`, `dir_detach_wrong` -/
example : (runs [] [(sys, ap), (sys, app2), (sys, .detach ['.', 'p'] true)] init).count 1 = 1 ∧
    (run { sys with ok := fun _ => false } [] (.detach ['.', 'p'] true) (runs [] [(sys, ap)] init)).1 = some .notFound ∧
    (run sys [] (.detach ['.', 'd'] true) (runs [] [(sys, .attach ['.', 'd', '/', 'b', '.', 's', 'o'] true)] init)).1 = some .notAttached := by
  decide +kernel

/-- A command that attaches without an exception leaves the file listed with what its name opens; one that cannot open it says so, and
where nothing was attached under the name nothing is afterwards and no count changed. -/
theorem attach_told (S : Sys L) (e : Bool) (n : Name) (s : St L) :
    ((attachFile S e n s).1 = none → ∃ l, S.lib n = some l ∧ look n (attachFile S e n s).2.list = some l) ∧
    (S.lib n = none → (attachFile S e n s).1 ≠ none ∧ (look n s.list = none →
      (attachFile S e n s).1 = some .cantOpen ∧ (∀ m, look m (attachFile S e n s).2.list = look m s.list) ∧
      (attachFile S e n s).2.count = s.count)) := by
  unfold attachFile
  rcases hn : look n s.list with _ | h <;> rcases hl : S.lib n with _ | l <;> cases e <;> simp [look_put, hn]
  all_goals
    intro m
    split
    · next h => rw [h, hn]
    · rfl

end Gnucap.Plug
