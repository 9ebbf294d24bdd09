import Verif.DcLifeModel

/-!
# What dc commands leave of the circuit (C108)

The specification: after a session the circuit is what the user's own changes made of it (`mine`), whatever `dc` commands came between.  It holds for the
sessions described by `Fine`; the witnesses at the end show the sessions in which it does not.
-/
namespace Gnucap.DcLife.Props

variable {C V : Type _}

/-- the circuit as changed by the user alone -/
def mine (w : World C V) : List (Step C V) → World C V
  | [] => w
  | .dc _ :: l => mine w l
  | .elt e c :: l => mine ⟨fun k => if k = e ∧ (w.elt e).isSome then some c else w.elt k, w.par⟩ l
  | .del e :: l => mine ⟨fun k => if k = e then none else w.elt k, w.par⟩ l
  | .par p v :: l => mine ⟨w.elt, fun k => if k = p then some v else w.par k⟩ l

/-- a level that may be named: something that is there, or anything as long as no parameter has been swept (`seen`) -/
def LvlOk (seen : Prop) (w : World C V) (a : Arg) : Prop :=
  match a with
  | .elt e => (w.elt e).isSome ∨ ¬ seen
  | .device => True
  | .num => ¬ seen
  | .par p => (w.par p).isSome ∨ ¬ seen
  | .other => ¬ seen

/-- a line that is not wrong and sweeps no component twice -/
def Right (x : Line V) : Prop :=
  (∀ l ∈ x.levels, l.bad = false ∧ l.arg ≠ .device) ∧ x.evalBad = none ∧
    x.levels.Pairwise fun a b => ∀ e, a.arg = .elt e → b.arg ≠ .elt e

/-- a line that names no component that is there -/
def Without (w : World C V) (x : Line V) : Prop := ∀ l ∈ x.levels, ∀ e, l.arg = .elt e → w.elt e = none

/-- the line names a parameter -/
def HasPar (x : Line V) : Prop := ∃ l ∈ x.levels, ∃ p, l.arg = .par p

/-- a line as above; or without levels, if no parameter has been swept and no line was wrong -/
def LineOk (seen wrong : Prop) (w : World C V) (x : Line V) : Prop :=
  (x.levels = [] → ¬ seen ∧ ¬ wrong) ∧ (∀ l ∈ x.levels, LvlOk seen w l.arg) ∧ (Right x ∨ Without w x)

/-- every `dc` line of a session is such a line, at its time -/
def Fine (seen wrong : Prop) (w : World C V) : List (Step C V) → Prop
  | [] => True
  | .dc x :: l => LineOk seen wrong w x ∧ Fine (seen ∨ HasPar x) (wrong ∨ ¬ Right x) w l
  | s :: l => Fine seen wrong (mine w [s]) l

/-- what the object is like between commands -/
def Rest (seen wrong : Prop) (d : Dc C V) : Prop := (∀ k, d.zap k = none) ∧ (¬ seen → ∀ k, d.pn k = none) ∧ (¬ wrong → d.n ≠ 0)

/-- and while a line is parsed -/
structure Mid (ls : List Lvl) (seen : Prop) (w : World C V) (i : ℕ) (d : Dc C V) : Prop where
  zap : ∀ k e, d.zap k = some e → (∃ l, ls[k]? = some l ∧ l.arg = .elt e) ∧ (w.elt e).isSome
  lt : ∀ k e, d.zap k = some e → k < i
  par : ∀ k, k < i → ∀ p v, d.pn k = some (p, v) → w.par p = some v
  both : ∀ k e, d.zap k = some e → d.pn k = none
  rest : ¬ seen → ∀ k, i ≤ k → d.pn k = none
  all : ¬ seen → (∀ l ∈ ls, ∀ p, l.arg ≠ .par p) → ∀ k, d.pn k = none

private theorem put_eq {A : Type _} (f : ℕ → A) (i k : ℕ) (a : A) : put f i a k = if k = i then a else f k := rfl

/-- one level -/
private theorem mid_choose {ls : List Lvl} {seen : Prop} {w : World C V} {i : ℕ} {d d' : Dc C V} {l : Lvl} (m : Mid ls seen w i d)
    (hl : ls[i]? = some l) (ok : LvlOk seen w l.arg) (h : d.choose w i l.arg = some d') : Mid ls seen w (i + 1) d' := by
  have keep (hs : ¬ seen) : Mid ls seen w (i + 1) d :=
    ⟨m.zap, fun k e h => Nat.lt_succ_of_lt (m.lt k e h),
      (fun k hk p v h => by
        rcases Nat.lt_succ_iff_lt_or_eq.mp hk with hk | hk
        · exact m.par k hk p v h
        · rw [hk, m.rest hs i (Nat.le_refl i)] at h; cases h),
      m.both, fun hs k hk => m.rest hs k (by omega), m.all⟩
  have hmem : l ∈ ls := List.mem_of_getElem? hl
  cases ha : l.arg with
  | device => rw [ha] at h; cases h
  | other => rw [ha] at h ok; cases h; exact keep ok
  | num =>
    rw [ha] at h ok
    cases h
    have q := keep ok
    have none_of (k e) (h : put d.zap i none k = some e) : d.zap k = some e := by
      rw [put_eq] at h; split at h <;> simp_all
    exact ⟨fun k e h => q.zap k e (none_of k e h), fun k e h => q.lt k e (none_of k e h), q.par, fun k e h => q.both k e (none_of k e h), q.rest, q.all⟩
  | elt e0 =>
    rw [ha] at h ok
    simp only [Dc.choose] at h
    split at h
    · rename_i hs
      cases h
      refine ⟨?_, ?_, ?_, ?_, ?_, ?_⟩
      · intro k e h
        simp only [put_eq] at h
        split at h
        · rename_i hk; cases h; rw [hk]; exact ⟨⟨l, hl, ha⟩, hs⟩
        · exact m.zap k e h
      · intro k e h
        simp only [put_eq] at h
        split at h
        · omega
        · have := m.lt k e h; omega
      · intro k hk p v h
        simp only [put_eq] at h
        split at h
        · cases h
        · exact m.par k (by omega) p v h
      · intro k e h
        simp only [put_eq] at h ⊢
        split
        · rfl
        · rename_i hk; rw [if_neg hk] at h; exact m.both k e h
      · intro hs k hk
        simp only [put_eq]
        split
        · rfl
        · exact m.rest hs k (by omega)
      · intro hs hp k
        simp only [put_eq]
        split
        · rfl
        · exact m.all hs hp k
    · rename_i hs
      cases h
      exact keep (ok.resolve_left hs)
  | par p0 =>
    rw [ha] at h ok
    simp only [Dc.choose] at h
    split at h
    · rename_i v0 hv
      cases h
      refine ⟨m.zap, fun k e h => Nat.lt_succ_of_lt (m.lt k e h), ?_, ?_, ?_, ?_⟩
      · intro k hk p v h
        simp only [put_eq] at h
        split at h
        · cases h; exact hv
        · exact m.par k (by omega) p v h
      · intro k e h
        have := m.lt k e h
        simp only [put_eq]
        rw [if_neg (by omega)]
        exact m.both k e h
      · intro hs k hk
        simp only [put_eq]
        rw [if_neg (by omega)]
        exact m.rest hs k (by omega)
      · intro hs hp k
        exact absurd ha (hp l hmem p0)
    · rename_i hv
      cases h
      exact keep (ok.resolve_left (by rw [hv]; simp))

private theorem mid_n {ls : List Lvl} {seen : Prop} {w : World C V} {i n : ℕ} {d : Dc C V} (m : Mid ls seen w i d) : Mid ls seen w i { d with n := n } :=
  ⟨m.zap, m.lt, m.par, m.both, m.rest, m.all⟩

/-- a component-free line, stopped behind the choice: only the levels before count -/
structure Stop (ls : List Lvl) (seen : Prop) (w : World C V) (d : Dc C V) : Prop where
  zap : ∀ k e, d.zap k = some e → k < d.n ∧ (∃ l, ls[k]? = some l ∧ l.arg = .elt e) ∧ (w.elt e).isSome
  par : ∀ k, k < d.n → ∀ p v, d.pn k = some (p, v) → w.par p = some v
  both : ∀ k e, d.zap k = some e → d.pn k = none
  all : ¬ seen → (∀ l ∈ ls, ∀ p, l.arg ≠ .par p) → ∀ k, d.pn k = none

private theorem parse_stop {ls : List Lvl} {seen : Prop} {w : World C V} (ok : ∀ l ∈ ls, LvlOk seen w l.arg)
    (g : (∀ l ∈ ls, l.bad = false) ∨ ∀ l ∈ ls, ∀ e, l.arg = .elt e → w.elt e = none) :
    ∀ (r : List Lvl) (i : ℕ) (d : Dc C V), ls.drop i = r → Mid ls seen w i d →
      Stop ls seen w (Dc.parse w r i d).1 ∧
      ((Dc.parse w r i d).2 = false → (Dc.parse w r i d).1.n = i + r.length) ∧
      ((Dc.parse w r i d).2 = true → ∃ l ∈ ls, l.bad = true ∨ l.arg = .device)
  | [], i, d, _, m => ⟨⟨fun k e h => ⟨m.lt k e h, m.zap k e h⟩, m.par, m.both, m.all⟩, fun _ => rfl, fun h => by cases h⟩
  | l :: r, i, d, hd, m => by
    have hl : ls[i]? = some l := by
      have := congrArg (fun t => t[0]?) hd
      simpa using this
    have hr : ls.drop (i + 1) = r := by
      have := congrArg List.tail hd
      simpa using this
    have hmem : l ∈ ls := List.mem_of_getElem? hl
    unfold Dc.parse
    cases hc : d.choose w i l.arg with
    | none =>
      have hdev : l.arg = .device := by
        cases ha : l.arg with
        | device => rfl
        | elt e => rw [ha] at hc; simp only [Dc.choose] at hc; split at hc <;> cases hc
        | num => rw [ha] at hc; cases hc
        | other => rw [ha] at hc; cases hc
        | par p => rw [ha] at hc; simp only [Dc.choose] at hc; split at hc <;> cases hc
      exact ⟨⟨fun k e h => ⟨m.lt k e h, m.zap k e h⟩, m.par, m.both, m.all⟩, fun h => by simp at h, fun _ => ⟨l, hmem, Or.inr hdev⟩⟩
    | some d' =>
      have m' := mid_choose m hl (ok l hmem) hc
      dsimp only
      cases hb : l.bad with
      | true =>
        rw [if_pos rfl]
        have none_here : ∀ l ∈ ls, ∀ e, l.arg = .elt e → w.elt e = none := g.resolve_left (fun g => by simp [g l hmem] at hb)
        refine ⟨⟨?_, ?_, m'.both, m'.all⟩, fun h => by simp at h, fun _ => ⟨l, hmem, Or.inl hb⟩⟩
        · intro k e h
          obtain ⟨⟨l', h1, h2⟩, h3⟩ := m'.zap k e h
          rw [none_here l' (List.mem_of_getElem? h1) e h2] at h3
          simp at h3
        · intro k hk p v h
          exact m'.par k (Nat.lt_succ_of_lt hk) p v h
      | false =>
        have h := parse_stop ok g r (i + 1) d' hr m'
        refine ⟨by simpa using h.1, fun hh => ?_, fun hh => h.2.2 (by simpa using hh)⟩
        have := h.2.1 (by simpa using hh)
        simp only [List.length_cons]
        simp only [Bool.false_eq_true, if_false]
        omega

/-- taking control: every component taken is stashed as it was -/
private theorem take_ok (ctrl : ℕ → C) : ∀ (L : List ℕ) (d : Dc C V) (w : World C V), L.Nodup →
    (∀ i ∈ L, ∀ j ∈ L, ∀ e, d.zap i = some e → d.zap j = some e → i = j) →
    (∀ i ∈ L, ∀ e, d.zap i = some e → (w.elt e).isSome) →
    ∃ st' w', Dc.take ctrl none L d w = some ({ d with st := st' }, w', false) ∧
      (∀ i ∈ L, ∀ e, d.zap i = some e → st' i = (w.elt e).map fun c => (e, c)) ∧
      (∀ i, i ∉ L → st' i = d.st i) ∧
      (∀ e, (∀ i ∈ L, d.zap i ≠ some e) → w'.elt e = w.elt e) ∧
      (∀ e, (w'.elt e).isSome = (w.elt e).isSome) ∧ w'.par = w.par
  | [], d, w, _, _, _ => ⟨d.st, w, rfl, by simp, by simp, by simp, by simp, rfl⟩
  | i :: L, d, w, hn, inj, ex => by
    have hi : i ∉ L := (List.nodup_cons.mp hn).1
    unfold Dc.take
    rw [if_neg (by simp)]
    cases hz : d.zap i with
    | none =>
      obtain ⟨st', w', h, h1, h2, h3, h4, h5⟩ := take_ok ctrl L d w (List.nodup_cons.mp hn).2
        (fun a ha b hb => inj a (List.mem_cons_of_mem _ ha) b (List.mem_cons_of_mem _ hb)) (fun a ha => ex a (List.mem_cons_of_mem _ ha))
      refine ⟨st', w', h, ?_, fun k hk => h2 k (fun h => hk (List.mem_cons_of_mem _ h)), ?_, h4, h5⟩
      · intro k hk e he
        rcases List.mem_cons.mp hk with rfl | hk
        · rw [hz] at he; cases he
        · exact h1 k hk e he
      · intro e he
        exact h3 e fun k hk => he k (List.mem_cons_of_mem _ hk)
    | some e0 =>
      have hs := ex i List.mem_cons_self e0 hz
      obtain ⟨c0, hc0⟩ := Option.isSome_iff_exists.mp hs
      have other : ∀ k ∈ L, d.zap k ≠ some e0 := fun k hk h =>
        hi ((inj i List.mem_cons_self k (List.mem_cons_of_mem _ hk) e0 hz h) ▸ hk)
      have some_eq : ∀ e, ((w.setElt e0 (some (ctrl i))).elt e).isSome = (w.elt e).isSome := by
        intro e
        simp only [World.setElt]
        split
        · rename_i h; rw [h, hc0]; rfl
        · rfl
      obtain ⟨st', w', h, h1, h2, h3, h4, h5⟩ := take_ok ctrl L { d with st := put d.st i (some (e0, c0)) } (w.setElt e0 (some (ctrl i)))
        (List.nodup_cons.mp hn).2
        (fun a ha b hb => inj a (List.mem_cons_of_mem _ ha) b (List.mem_cons_of_mem _ hb))
        (fun a ha e he => by rw [some_eq]; exact ex a (List.mem_cons_of_mem _ ha) e he)
      simp only [hc0]
      refine ⟨st', w', h, ?_, ?_, ?_, fun e => by rw [h4, some_eq], h5⟩
      · intro k hk e he
        rcases List.mem_cons.mp hk with rfl | hk
        · rw [hz] at he
          cases he
          rw [h2 k hi, hc0]
          simp [put_eq]
        · rw [h1 k hk e he]
          have : e ≠ e0 := fun h => other k hk (h ▸ he)
          simp [World.setElt, this]
      · intro k hk
        have hki : k ≠ i := fun h => hk (h ▸ List.mem_cons_self)
        rw [h2 k (fun h => hk (List.mem_cons_of_mem _ h))]
        simp [put_eq, hki]
      · intro e he
        rw [h3 e fun k hk => he k (List.mem_cons_of_mem _ hk)]
        have : e ≠ e0 := fun h => he i List.mem_cons_self (h ▸ hz)
        simp [World.setElt, this]

private theorem sweep_elt (last : ℕ → V) (d : Dc C V) : ∀ (L : List ℕ) (w : World C V), (d.sweep last L w).elt = w.elt
  | [], _ => rfl
  | i :: L, w => by
    unfold Dc.sweep
    split
    · exact sweep_elt last d L w
    · rw [sweep_elt last d L]; rfl

private theorem sweep_par (last : ℕ → V) (d : Dc C V) (p : ℕ) : ∀ (L : List ℕ) (w : World C V), (∀ i ∈ L, ∀ v, d.pn i ≠ some (p, v)) →
    (d.sweep last L w).par p = w.par p
  | [], _, _ => rfl
  | i :: L, w, h => by
    unfold Dc.sweep
    split
    · exact sweep_par last d p L w fun k hk => h k (List.mem_cons_of_mem _ hk)
    · rename_i q v hq
      rw [sweep_par last d p L _ fun k hk => h k (List.mem_cons_of_mem _ hk)]
      have : p ≠ q := fun e => h i List.mem_cons_self v (e ▸ hq)
      simp [World.setPar, this]

/-- `finish` puts back what was stashed: `w0` is the circuit before -/
private theorem finish_ok (w0 : World C V) : ∀ (L : List ℕ) (d : Dc C V) (w : World C V), L.Nodup →
    (∀ i ∈ L, ∀ e, d.zap i = some e → ∃ c, w0.elt e = some c ∧ d.st i = some (e, c)) →
    (∀ i ∈ L, ∀ p v, d.zap i = none → d.pn i = some (p, v) → w0.par p = some v) →
    (∀ e, (w.elt e).isSome = (w0.elt e).isSome) →
    (∀ e, (∀ i ∈ L, d.zap i ≠ some e) → w.elt e = w0.elt e) →
    (∀ p, (∀ i ∈ L, ∀ v, d.zap i = none → d.pn i ≠ some (p, v)) → w.par p = w0.par p) →
    ∃ z, Dc.finish L d w = some ({ d with zap := z }, w0) ∧ (∀ i ∈ L, z i = none) ∧ ∀ i, i ∉ L → z i = d.zap i
  | [], d, w, _, _, _, _, h1, h2 => by
    refine ⟨d.zap, ?_, by simp, by simp⟩
    have : w = w0 := by
      cases w; cases w0
      have a := funext fun e => h1 e (by simp)
      have b := funext fun p => h2 p (by simp)
      simp_all
    rw [this]; rfl
  | i :: L, d, w, hn, hz, hp, hs, h1, h2 => by
    have hi : i ∉ L := (List.nodup_cons.mp hn).1
    have hnL := (List.nodup_cons.mp hn).2
    unfold Dc.finish
    cases hzi : d.zap i with
    | some e0 =>
      obtain ⟨c0, hc0, hst⟩ := hz i List.mem_cons_self e0 hzi
      have hs0 : (w.elt e0).isSome := by rw [hs, hc0]; rfl
      simp only [hst]
      rw [if_pos ⟨hs0, hs0⟩]
      have zeq : ∀ k ∈ L, put d.zap i none k = d.zap k := fun k hk => by
        rw [put_eq, if_neg (fun h : k = i => hi (h ▸ hk))]
      obtain ⟨z, h, ha, hb⟩ := finish_ok w0 L { d with zap := put d.zap i none } (w.setElt e0 (some c0)) hnL
        (fun k hk e he => hz k (List.mem_cons_of_mem _ hk) e (by rw [← zeq k hk]; exact he))
        (fun k hk p v hk0 hkp => hp k (List.mem_cons_of_mem _ hk) p v (by rw [← zeq k hk]; exact hk0) hkp)
        (fun e => by
          simp only [World.setElt]
          split
          · rename_i h; rw [h, hc0]
          · exact hs e)
        (fun e he => by
          simp only [World.setElt]
          split
          · rename_i h; rw [h, hc0]
          · rename_i hne
            refine h1 e fun k hk => ?_
            rcases List.mem_cons.mp hk with rfl | hk
            · rw [hzi]; intro h; cases h; exact hne rfl
            · rw [← zeq k hk]; exact he k hk)
        (fun p hpp => h2 p fun k hk v hk0 => by
          rcases List.mem_cons.mp hk with rfl | hk
          · rw [hzi] at hk0; cases hk0
          · exact hpp k hk v ((zeq k hk).trans hk0))
      refine ⟨z, h, ?_, ?_⟩
      · intro k hk
        rcases List.mem_cons.mp hk with rfl | hk
        · rw [hb k hi]; simp [put_eq]
        · exact ha k hk
      · intro k hk
        have hki : k ≠ i := fun h => hk (h ▸ List.mem_cons_self)
        rw [hb k fun h => hk (List.mem_cons_of_mem _ h)]
        simp [put_eq, hki]
    | none =>
      have fin (w' : World C V) (hw : w'.elt = w.elt) (h2' : ∀ p, (∀ i ∈ L, ∀ v, d.zap i = none → d.pn i ≠ some (p, v)) → w'.par p = w0.par p) :
          ∃ z, Dc.finish L d w' = some ({ d with zap := z }, w0) ∧ (∀ k ∈ i :: L, z k = none) ∧ ∀ k, k ∉ i :: L → z k = d.zap k := by
        obtain ⟨z, h, ha, hb⟩ := finish_ok w0 L d w' hnL
          (fun k hk => hz k (List.mem_cons_of_mem _ hk)) (fun k hk => hp k (List.mem_cons_of_mem _ hk))
          (fun e => by rw [hw]; exact hs e)
          (fun e he => by
            rw [hw]
            refine h1 e fun k hk => ?_
            rcases List.mem_cons.mp hk with rfl | hk
            · rw [hzi]; simp
            · exact he k hk) h2'
        refine ⟨z, h, ?_, fun k hk => hb k fun h => hk (List.mem_cons_of_mem _ h)⟩
        intro k hk
        rcases List.mem_cons.mp hk with rfl | hk
        · rw [hb k hi, hzi]
        · exact ha k hk
      cases hpi : d.pn i with
      | none =>
        refine fin w rfl fun p hpp => h2 p fun k hk v hk0 => ?_
        rcases List.mem_cons.mp hk with rfl | hk
        · rw [hpi]; simp
        · exact hpp k hk v hk0
      | some q =>
        obtain ⟨p0, v0⟩ := q
        refine fin (w.setPar p0 v0) rfl fun p hpp => ?_
        simp only [World.setPar]
        split
        · rename_i h; rw [h]; exact (hp i List.mem_cons_self p0 v0 hzi hpi).symm
        · rename_i hne
          refine h2 p fun k hk v hk0 => ?_
          rcases List.mem_cons.mp hk with rfl | hk
          · rw [hpi]; intro h; cases h; exact hne rfl
          · exact hpp k hk v hk0

private theorem take_none (ctrl : ℕ → C) (bad : Option ℕ) (d : Dc C V) (w : World C V) : ∀ (L : List ℕ), (∀ i ∈ L, d.zap i = none) →
    ∃ t, Dc.take ctrl bad L d w = some (d, w, t)
  | [], _ => ⟨false, rfl⟩
  | i :: L, h => by
    unfold Dc.take
    split
    · exact ⟨true, rfl⟩
    · rw [h i List.mem_cons_self]
      exact take_none ctrl bad d w L fun k hk => h k (List.mem_cons_of_mem _ hk)

/-- a command without arguments, while nothing is left of earlier ones -/
private theorem cmd_alone (ctrl : ℕ → C) {d : Dc C V} {w : World C V} (x : Line V) (hz : ∀ k, d.zap k = none) (hp : ∀ k, d.pn k = none)
    (hn : d.n ≠ 0) (hx : x.levels = []) :
    ∃ d', d.cmd ctrl x w = some (d', w) ∧ (∀ k, d'.zap k = none) ∧ (∀ k, d'.pn k = none) ∧ d'.n ≠ 0 := by
  unfold Dc.cmd
  rw [if_pos hx]
  dsimp only
  rw [if_neg (by simp), if_neg hn]
  obtain ⟨t, ht⟩ := take_none ctrl x.evalBad d w (List.range d.n) fun i _ => hz i
  rw [ht]
  dsimp only
  have fin (w' : World C V) (he : w'.elt = w.elt) (hq : ∀ p, w'.par p = w.par p) :
      ∃ d', Dc.finish (List.range d.n) d w' = some (d', w) ∧ (∀ k, d'.zap k = none) ∧ (∀ k, d'.pn k = none) ∧ d'.n ≠ 0 := by
    obtain ⟨z, h, ha, hb⟩ := finish_ok w (List.range d.n) d w' List.nodup_range
      (fun i _ e h => by rw [hz] at h; cases h) (fun i _ p v _ h => by rw [hp] at h; cases h)
      (fun e => by rw [he]) (fun e _ => by rw [he]) (fun p _ => hq p)
    refine ⟨_, h, fun k => ?_, hp, hn⟩
    by_cases hk : k ∈ List.range d.n
    · exact ha k hk
    · exact (hb k hk).trans (hz k)
  cases t with
  | true => exact fin w rfl fun _ => rfl
  | false => exact fin _ (sweep_elt _ _ _ _) fun p => sweep_par _ _ p _ _ fun i _ v => by rw [hp]; simp

/-- one command -/
private theorem cmd_ok (ctrl : ℕ → C) {seen wrong : Prop} {d : Dc C V} {w : World C V} {x : Line V} (r : Rest seen wrong d) (ok : LineOk seen wrong w x) :
    ∃ d', d.cmd ctrl x w = some (d', w) ∧ Rest (seen ∨ HasPar x) (wrong ∨ ¬ Right x) d' := by
  obtain ⟨hal, hl, hg⟩ := ok
  by_cases hne : x.levels = []
  · obtain ⟨hs, hw⟩ := hal hne
    obtain ⟨d', h, h1, h2, h3⟩ := cmd_alone ctrl x r.1 (r.2.1 hs) (r.2.2 hw) hne (w := w)
    exact ⟨d', h, h1, fun _ => h2, fun _ => h3⟩
  have sub : ∀ l ∈ x.levels.take 4, l ∈ x.levels := fun l h => List.mem_of_mem_take h
  have m : Mid (x.levels.take 4) seen w 0 d :=
    ⟨(fun k e h => by rw [r.1] at h; cases h), (fun k e h => by rw [r.1] at h; cases h), fun k hk => absurd hk (by omega),
      (fun k e h => by rw [r.1] at h; cases h), fun hs k _ => r.2.1 hs k, fun hs _ => r.2.1 hs⟩
  have P := parse_stop (ls := x.levels.take 4) (fun l h => hl l (sub l h))
    (hg.imp (fun g l h => (g.1 l (sub l h)).1) (fun g l h => g l (sub l h))) (x.levels.take 4) 0 d List.drop_zero m
  unfold Dc.cmd
  rw [if_neg hne]
  dsimp only
  generalize Dc.parse w (x.levels.take 4) 0 d = q at P
  obtain ⟨d1, t⟩ := q
  obtain ⟨S, hn, ht⟩ := P
  dsimp only at S hn ht ⊢
  have hr0 : Right x → d1.n ≠ 0 := by
    intro g
    have htf : t = false := by
      cases t with
      | false => rfl
      | true =>
        obtain ⟨l, h1, h2⟩ := ht rfl
        have := g.1 l (sub l h1)
        rcases h2 with h2 | h2
        · rw [this.1] at h2; cases h2
        · exact absurd h2 this.2
    rw [hn htf]
    have : x.levels.length ≠ 0 := fun h => hne (List.length_eq_zero_iff.mp h)
    simp only [List.length_take]
    omega
  have rest (z : ℕ → Option ℕ) (n : ℕ) (st : ℕ → Option (ℕ × C)) (hz : ∀ i ∈ List.range d1.n, z i = none) (hz' : ∀ i, i ∉ List.range d1.n → z i = d1.zap i)
      (hnn : Right x → n ≠ 0) : Rest (seen ∨ HasPar x) (wrong ∨ ¬ Right x) { d1 with zap := z, n := n, st := st } := by
    refine ⟨fun k => ?_, fun hs => ?_, fun hw => hnn (by by_contra h; exact hw (Or.inr h))⟩
    · by_cases hk : k ∈ List.range d1.n
      · exact hz k hk
      · show z k = none
        rw [hz' k hk]
        cases h : d1.zap k with
        | none => rfl
        | some e => exact absurd (List.mem_range.mpr (S.zap k e h).1) hk
    · push Not at hs
      exact S.all hs.1 fun l hl p hp => hs.2 ⟨l, sub l hl, p, hp⟩
  -- nothing taken: finish only writes what is there
  have nothing (zn : ∀ k, d1.zap k = none) (w' : World C V) (he : w'.elt = w.elt)
      (hp : ∀ p, (∀ i ∈ List.range d1.n, ∀ v, d1.pn i ≠ some (p, v)) → w'.par p = w.par p) :
      ∃ d', Dc.finish (List.range d1.n) d1 w' = some (d', w) ∧ Rest (seen ∨ HasPar x) (wrong ∨ ¬ Right x) d' := by
    obtain ⟨z, h, ha, hb⟩ := finish_ok w (List.range d1.n) d1 w' List.nodup_range
      (fun i _ e h => by rw [zn] at h; cases h) (fun i hi p v _ h => S.par i (List.mem_range.mp hi) p v h)
      (fun e => by rw [he]) (fun e _ => by rw [he]) (fun p h => hp p fun i hi v => h i hi v (zn i))
    exact ⟨_, h, rest z d1.n d1.st ha hb hr0⟩
  rcases hg with g | g
  · have htf : t = false := by
      cases t with
      | false => rfl
      | true =>
        obtain ⟨l, h1, h2⟩ := ht rfl
        have := g.1 l (sub l h1)
        rcases h2 with h2 | h2
        · rw [this.1] at h2; cases h2
        · exact absurd h2 this.2
    subst htf
    have hn0 : d1.n ≠ 0 := by
      rw [hn rfl]
      have : x.levels.length ≠ 0 := fun h => hne (List.length_eq_zero_iff.mp h)
      simp only [List.length_take]
      omega
    rw [if_neg (by simp), if_neg hn0, g.2.1]
    have pw : (x.levels.take 4).Pairwise fun a b => ∀ e, a.arg = .elt e → b.arg ≠ .elt e := g.2.2.sublist (List.take_sublist _ _)
    have ne (i j : ℕ) (e : ℕ) (hij : i < j) (h1 : d1.zap i = some e) (h2 : d1.zap j = some e) : False := by
      obtain ⟨-, ⟨a, ha, ha'⟩, -⟩ := S.zap i e h1
      obtain ⟨-, ⟨b, hb, hb'⟩, -⟩ := S.zap j e h2
      obtain ⟨hi, rfl⟩ := List.getElem?_eq_some_iff.mp ha
      obtain ⟨hj, rfl⟩ := List.getElem?_eq_some_iff.mp hb
      exact List.pairwise_iff_getElem.mp pw i j hi hj hij e ha' hb'
    obtain ⟨st', w', h, h1, -, h3, h4, h5⟩ := take_ok ctrl (List.range d1.n) d1 w List.nodup_range
      (fun i _ j _ e hi hj => by
        rcases Nat.lt_trichotomy i j with hij | hij | hij
        · exact (ne i j e hij hi hj).elim
        · exact hij
        · exact (ne j i e hij hj hi).elim)
      (fun i _ e he => (S.zap i e he).2.2)
    rw [h]
    simp only [Bool.false_eq_true, if_false]
    obtain ⟨z, hf, ha, hb⟩ := finish_ok w (List.range d1.n) { d1 with st := st' }
      (Dc.sweep x.last { d1 with st := st' } (List.range d1.n) w') List.nodup_range
      (fun i hi e he => by
        obtain ⟨c, hc⟩ := Option.isSome_iff_exists.mp (S.zap i e he).2.2
        exact ⟨c, hc, by show st' i = _; rw [h1 i hi e he, hc]; rfl⟩)
      (fun i hi p v _ hpv => S.par i (List.mem_range.mp hi) p v hpv)
      (fun e => by rw [sweep_elt]; exact h4 e)
      (fun e he => by rw [sweep_elt]; exact h3 e he)
      (fun p hp => by
        rw [sweep_par x.last { d1 with st := st' } p (List.range d1.n) w', h5]
        intro i hi v hv
        cases hz : d1.zap i with
        | none => exact hp i hi v hz hv
        | some e =>
          have := S.both i e hz
          rw [show d1.pn i = some (p, v) from hv] at this
          cases this)
    exact ⟨_, hf, rest z d1.n st' ha hb hr0⟩
  · have zn : ∀ k, d1.zap k = none := fun k => by
      cases h : d1.zap k with
      | none => rfl
      | some e =>
        obtain ⟨-, ⟨l, h1, h2⟩, h3⟩ := S.zap k e h
        rw [g l (sub l (List.mem_of_getElem? h1)) e h2] at h3
        simp at h3
    cases t with
    | true =>
      rw [if_pos rfl]
      exact nothing zn w rfl fun _ _ => rfl
    | false =>
      have hn0 : d1.n ≠ 0 := by
        rw [hn rfl]
        have : x.levels.length ≠ 0 := fun h => hne (List.length_eq_zero_iff.mp h)
        simp only [List.length_take]
        omega
      rw [if_neg (by simp), if_neg hn0]
      obtain ⟨t, ht⟩ := take_none ctrl x.evalBad d1 w (List.range d1.n) fun i _ => zn i
      rw [ht]
      dsimp only
      cases t with
      | true => exact nothing zn w rfl fun _ _ => rfl
      | false =>
        exact nothing zn _ (sweep_elt _ _ _ _) fun p hp => sweep_par _ _ p _ _ hp

private theorem run_ok (ctrl : ℕ → C) : ∀ (l : List (Step C V)) (seen wrong : Prop) (d : Dc C V) (w : World C V), Rest seen wrong d → Fine seen wrong w l →
    ∃ d', run ctrl (d, w) l = some (d', mine w l)
  | [], _, _, d, _, _, _ => ⟨d, rfl⟩
  | .dc x :: l, seen, wrong, d, w, r, f => by
    obtain ⟨d', h, r'⟩ := cmd_ok ctrl r f.1
    obtain ⟨d'', h'⟩ := run_ok ctrl l _ _ d' w r' f.2
    exact ⟨d'', by simp only [run, step, h, Option.bind_some, mine]; exact h'⟩
  | .elt e c :: l, seen, wrong, d, w, r, f => by
    obtain ⟨d'', h'⟩ := run_ok ctrl l seen wrong d _ r f
    refine ⟨d'', ?_⟩
    rw [show mine w (.elt e c :: l) = mine (mine w [.elt e c]) l from rfl, ← h']
    simp only [run, step, Option.bind_some, mine]
    congr 2
    split
    · rename_i hs; simp [World.setElt, hs]
    · rename_i hs; simp [hs]
  | .del e :: l, seen, wrong, d, w, r, f => by
    obtain ⟨d'', h'⟩ := run_ok ctrl l seen wrong d _ r f
    exact ⟨d'', h'⟩
  | .par p v :: l, seen, wrong, d, w, r, f => by
    obtain ⟨d'', h'⟩ := run_ok ctrl l seen wrong d _ r f
    exact ⟨d'', h'⟩

/-- C108: in every such session nothing is undefined, and the circuit is what the user made of it -/
theorem session_partial (ctrl : ℕ → C) (w : World C V) (l : List (Step C V)) (f : Fine False False w l) :
    ∃ d, run ctrl (Dc.new, w) l = some (d, mine w l) :=
  run_ok ctrl l False False _ w ⟨fun _ => rfl, fun _ _ => rfl, fun _ => Nat.one_ne_zero⟩ f

/-- C108: a right `dc` line that names only things that are there leaves the circuit as it was, whatever parameters were swept before -/
theorem one_partial (ctrl : ℕ → C) (d : Dc C V) (w : World C V) (x : Line V) (hz : ∀ k, d.zap k = none) (hne : x.levels ≠ []) (hr : Right x)
    (hn : ∀ l ∈ x.levels, (∃ e, l.arg = .elt e ∧ (w.elt e).isSome) ∨ ∃ p, l.arg = .par p ∧ (w.par p).isSome) :
    ∃ d', d.cmd ctrl x w = some (d', w) ∧ ∀ k, d'.zap k = none := by
  obtain ⟨d', h, r⟩ := cmd_ok ctrl (seen := True) (wrong := True) (d := d) (w := w) (x := x)
    ⟨hz, fun h => absurd trivial h, fun h => absurd trivial h⟩
    ⟨fun h => absurd h hne, fun l hl => by
      rcases hn l hl with ⟨e, h1, h2⟩ | ⟨p, h1, h2⟩
      · rw [h1]; exact Or.inl h2
      · rw [h1]; exact Or.inl h2, Or.inl hr⟩
  exact ⟨d', h, r.1⟩

/-! ## the sessions in which it does not hold -/

/-- a circuit: components 0 and 1, parameter 0 -/
def circ : World ℕ ℕ := ⟨fun k => if k < 2 then some (10 + k) else none, fun k => if k = 0 then some 3 else none⟩

/-- a right line sweeping one thing -/
def sw (a : Arg) : Line ℕ := ⟨[⟨a, false⟩], none, fun _ => 99⟩

/-- `dc R1 0 1 D1`: the second thing cannot be swept -/
def swDevice (e : ℕ) : Line ℕ := ⟨[⟨.elt e, false⟩, ⟨.device, false⟩], none, fun _ => 99⟩

example : ∃ d, run (fun _ => 0) (Dc.new, circ) [.dc ⟨[], none, fun _ => 99⟩, .dc (sw (.elt 0)), .elt 0 5, .dc (sw .num), .del 1, .dc (sw (.par 0)), .par 0 8, .dc (sw (.par 0))] =
    some (d, mine circ [.elt 0 5, .del 1, .par 0 8]) :=
  session_partial _ _ _ (by simp [Fine, LineOk, LvlOk, Right, Without, HasPar, sw, circ, mine])

example : ∃ d', (Dc.new : Dc ℕ ℕ).cmd (fun _ => 0) (sw (.par 0)) circ = some (d', circ) ∧ ∀ k, d'.zap k = none :=
  one_partial _ _ _ _ (fun _ => rfl) (by simp [sw]) (by simp [Right, sw]) (by simp [sw, circ])

/-- C108 fails: a first `dc` line that names a component and then something that cannot be swept restores from an empty stash -/
theorem empty_stash : run (fun _ => 0) (Dc.new, circ) [.dc (swDevice 0)] = none := rfl

/-- C108 fails: after an earlier sweep of component 0 such a line about component 1 gives component 0 the value it had then -/
theorem reverts : ((run (fun _ => 0) (Dc.new, circ) [.dc (sw (.elt 0)), .elt 0 5, .dc (swDevice 1)]).map fun s => (s.2.elt 0, s.2.elt 1)) =
    some (some 10, some 11) ∧ (mine circ [.elt 0 5]).elt 0 = some 5 := ⟨rfl, rfl⟩

/-- C108 fails: and if component 0 has been deleted, writes to it all the same -/
theorem dangles : run (fun _ => 0) (Dc.new, circ) [.dc (sw (.elt 0)), .del 0, .dc (swDevice 1)] = none := rfl

/-- C108 fails: a parameter swept once gets its old text back from a later sweep of the generator, or from `dc` without arguments -/
theorem param_reverts (x : Line ℕ) (hx : x = sw .num ∨ x = ⟨[], none, fun _ => 99⟩) :
    ((run (fun _ => 0) (Dc.new, circ) [.dc (sw (.par 0)), .par 0 8, .dc x]).map fun s => s.2.par 0) = some (some 3) ∧
    (mine circ [.par 0 8]).par 0 = some 8 := by
  rcases hx with rfl | rfl <;> exact ⟨rfl, rfl⟩

/-- C108 fails: a line wrong behind a component leaves that component chosen, and the next sweep of a parameter leaves the parameter at its last value -/
theorem lingers : ((run (fun _ => 0) (Dc.new, circ) [.dc ⟨[⟨.elt 0, true⟩], none, fun _ => 99⟩, .dc (sw (.par 0))]).map fun s => s.2.par 0) =
    some (some 99) := rfl

/-- C108 fails: a line wrong at its first level leaves no level, and `dc` without arguments then has none to sweep -/
theorem no_level : run (fun _ => 0) (Dc.new, circ) [.dc ⟨[⟨.num, true⟩], none, fun _ => 99⟩, .dc ⟨[], none, fun _ => 99⟩] = none := rfl

/-- C108 fails: a component named at two levels is left with the common of the sweep -/
theorem twice : ((run (fun _ => 77) (Dc.new, circ) [.dc ⟨[⟨.elt 0, false⟩, ⟨.elt 0, false⟩], none, fun _ => 99⟩]).map fun s => s.2.elt 0) =
    some (some 77) := rfl

/-- C108 fails: an argument that cannot be evaluated at the second level leaves the component of that level to an empty stash -/
theorem eval_fails : run (fun _ => 0) (Dc.new, circ) [.dc ⟨[⟨.elt 0, false⟩, ⟨.elt 1, false⟩], some 1, fun _ => 99⟩] = none := rfl

end Gnucap.DcLife.Props
