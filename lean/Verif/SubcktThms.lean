import Verif.SubcktProps

/-! # Expanding subcircuits gives the flat circuit: the theorems (C65) -/
set_option linter.unusedSectionVars false
set_option linter.unusedSimpArgs false
namespace Gnucap.Subckt
open Gnucap.Sim

/-! ## The whole circuit -/

theorem connect_root {ci : Bool} {F : List Name} : ∀ {ns : List Name}, (∀ w ∈ ns, nrm ci w ∈ ['0'] :: F) →
    ∃ a, connect (outside ci) ns = some a ∧
      a.map (num (F.map (Net.node []))) = ns.map fun w => (['0'] :: F).idxOf (nrm ci w) := by
  intro ns
  induction ns with
  | nil => intro _; exact ⟨[], rfl, rfl⟩
  | cons w ws ih =>
    intro h
    obtain ⟨a, h1, h2⟩ := ih fun v hv => h v (List.mem_cons_of_mem _ hv)
    by_cases h0 : nrm ci w = ['0']
    · refine ⟨.gnd :: a, ?_, ?_⟩
      · rw [connect, h1]; simp [outside, h0]
      · rw [List.map_cons, List.map_cons, h2, h0]; simp [num]
    · refine ⟨.node [] (nrm ci w) :: a, ?_, ?_⟩
      · rw [connect, h1]; simp [outside, h0]
      · rw [List.map_cons, List.map_cons, h2, List.idxOf_cons_ne _ (Ne.symm h0)]
        congr 1
        show (F.map (Net.node [])).idxOf (Net.node [] (nrm ci w)) + 1 = _
        rw [idxOf_map_inj (Net.node []) (by intro x y h; exact (Net.node.inj h).2)]

theorem tcards_root {ci : Bool} {F : List Name} : ∀ {ls : List Line}, (∀ l ∈ ls, ∀ w ∈ l.nodes, nrm ci w ∈ ['0'] :: F) →
    tcards (outside ci) (F.map (Net.node [])) ls = some ((ls.map (cardOf ci (['0'] :: F))).map rootCard) := by
  intro ls
  induction ls with
  | nil => intro _; rfl
  | cons l ls ih =>
    intro h
    have h2 := ih fun v hv => h v (List.mem_cons_of_mem _ hv)
    cases l with
    | dev ns k =>
      obtain ⟨a, ha, hn⟩ := connect_root (ci := ci) (F := F) (ns := ns) (h _ (List.mem_cons_self ..))
      simp only [tcards, tcard, h2, ha, Option.map_some, List.map_cons, cardOf, rootCard, hn]
    | inst o ns =>
      obtain ⟨a, ha, hn⟩ := connect_root (ci := ci) (F := F) (ns := ns) (h _ (List.mem_cons_self ..))
      simp only [tcards, tcard, h2, ha, Option.map_some, List.map_cons, cardOf, rootCard, hn]

/-- **C65**: expanding a circuit gives the flat circuit.  When the flat circuit exists, every terminal and every node made
by a device gets the number of its net, the nets are numbered without gaps and without repetition, and the final count is
the number of nets.  When it does not exist there is an error, and never a write outside the table. -/
theorem elaborate_flat (ci : Bool) (lib : List Sub) (root : List Line) (depth : ℕ)
    (hlib : ∀ s ∈ lib, GoodPorts ci s.ports) :
    match flatCircuit ci lib root depth with
    | some (devs, nets) =>
      elaborate ci lib root depth = .ok (devs.map (fun l => l.map (num nets)), nets.length) ∧
      nets.Nodup ∧ .gnd ∉ nets ∧ (∀ l ∈ devs, ∀ n ∈ l, n = .gnd ∨ n ∈ nets)
    | none => ∃ e, e ≠ .overrun ∧ elaborate ci lib root depth = .error e := by
  set F := firsts [['0']] (bodyNames ci root) with hF
  set P := F.map (Net.node []) with hPdef
  have hnm : ∀ l ∈ root, ∀ w ∈ l.nodes, nrm ci w ∈ ['0'] :: F := by
    intro l hl w hw
    have : nrm ci w ∈ [['0']] ++ F := by
      rw [hF, mem_firsts]
      right
      unfold bodyNames
      exact List.mem_map_of_mem (List.mem_flatMap.mpr ⟨l, hl, hw⟩)
    exact this
  have hel : elaborate ci lib root depth =
      expand (lib.map fun s => ⟨s.name, parseSub ci s⟩) depth ((root.map (cardOf ci (['0'] :: F))).map rootCard) P.length := by
    unfold elaborate
    rw [nmInit_ofKeys, parseBody_spec ci root [['0']] (by simp)]
    simp only
    rw [howMany_ofKeys]
    simp [hPdef, ← hF]
  have hFn : (['0'] :: F).Nodup := firsts_nodup [['0']] (bodyNames ci root) (by simp)
  have hPn : P.Nodup := List.Nodup.map (fun x y h => (Net.node.inj h).2) (List.nodup_cons.mp hFn).2
  have hPk : ∀ n ∈ P, n.key = [] := by
    intro n hn
    rw [hPdef, List.mem_map] at hn
    obtain ⟨w, _, rfl⟩ := hn
    rfl
  have hPU : ∀ n ∈ P, ¬ Under [] 0 n := by
    rintro n hn ⟨i, _, h2⟩
    rw [hPk n hn] at h2
    have := h2.length_le
    simp at this
  have hK : Known (outside ci) P root := by
    intro l hl w hw n hn
    unfold outside at hn
    by_cases h0 : nrm ci w = ['0']
    · rw [if_pos h0] at hn; left; exact (Option.some.inj hn).symm
    · rw [if_neg h0] at hn
      right
      rw [← Option.some.inj hn, hPdef]
      apply List.mem_map_of_mem
      rcases List.mem_cons.mp (hnm l hl w hw) with h | h
      · exact absurd h h0
      · exact h
  have H := expand_refines ci lib hlib depth root (outside ci) P [] 0 _ hK hPU (tcards_root hnm)
  unfold Refines at H
  rw [hel]
  unfold flatCircuit
  cases hf : flat ci lib depth (outside ci) [] 0 root with
  | none => rw [hf] at H; exact H
  | some r =>
    rw [hf] at H
    obtain ⟨H1, H2, H3, H4⟩ := H
    refine ⟨H1, ?_, ?_, H4⟩
    · rw [List.nodup_append]
      refine ⟨hPn, H3, ?_⟩
      intro x hx y hy hxy
      subst hxy
      exact hPU x hx (H2 x hy)
    · intro h
      rcases List.mem_append.mp h with h | h
      · rw [List.mem_map] at h
        obtain ⟨w, _, hw⟩ := h
        cases hw
      · exact (H2 _ h).not_gnd rfl

theorem num_inj {nets : List Net} (hg : Net.gnd ∉ nets) {a b : Net} (ha : a = .gnd ∨ a ∈ nets) (hb : b = .gnd ∨ b ∈ nets) :
    num nets a = num nets b ↔ a = b := by
  constructor
  · intro h
    have key : ∀ x : Net, x ∈ nets → num nets x = nets.idxOf x + 1 := by
      intro x hx
      cases x with
      | gnd => exact absurd hx hg
      | node p w => rfl
      | inner p j k => rfl
    rcases ha with rfl | ha
    · rcases hb with rfl | hb
      · rfl
      · rw [key b hb] at h; simp [num] at h
    · rcases hb with rfl | hb
      · rw [key a ha] at h; simp [num] at h
      · rw [key a ha, key b hb] at h
        have hi : nets.idxOf a = nets.idxOf b := by omega
        have h1 := List.getElem_idxOf (List.idxOf_lt_length_of_mem ha)
        have h2 := List.getElem_idxOf (List.idxOf_lt_length_of_mem hb)
        rw [← h1, ← h2]
        simp only [hi]
  · rintro rfl; rfl

theorem num_le {nets : List Net} {a : Net} (ha : a = .gnd ∨ a ∈ nets) : num nets a ≤ nets.length := by
  cases a with
  | gnd => simp [num]
  | node p w =>
    have : Net.node p w ∈ nets := by simpa using ha
    have := List.idxOf_lt_length_of_mem this
    simp only [num]; omega
  | inner p j k =>
    have : Net.inner p j k ∈ nets := by simpa using ha
    have := List.idxOf_lt_length_of_mem this
    simp only [num]; omega

/-- **C65**, what a user sees of it: terminal `i` of device `d` and terminal `i'` of device `d'`, wherever in the hierarchy
they are, share a row of the matrix exactly when they are on the same net; ground has row 0; every row is some net's. -/
theorem elaborate_rows (ci : Bool) (lib : List Sub) (root : List Line) (depth : ℕ) (o : Order) (nm : ℕ → ℕ)
    (hlib : ∀ s ∈ lib, GoodPorts ci s.ports) {devs : List (List Net)} {nets : List Net}
    (hflat : flatCircuit ci lib root depth = some (devs, nets)) {out : List (List ℕ)} {tot : ℕ}
    (hel : elaborate ci lib root depth = .ok (out, tot)) :
    out.length = devs.length ∧ tot = nets.length ∧
    (∀ (d i d' i' : ℕ) (l l' : List Net) (n n' : Net) (t t' : List ℕ) (x x' : ℕ),
      devs[d]? = some l → l[i]? = some n → devs[d']? = some l' → l'[i']? = some n' →
      out[d]? = some t → t[i]? = some x → out[d']? = some t' → t'[i']? = some x' →
      (mapNodes o tot nm x = mapNodes o tot nm x' ↔ n = n') ∧ (mapNodes o tot nm x = 0 ↔ n = .gnd) ∧ mapNodes o tot nm x ≤ tot) ∧
    (∀ k, k ≤ tot → ∃ n, (n = .gnd ∨ n ∈ nets) ∧ mapNodes o tot nm (num nets n) = k) := by
  have H := elaborate_flat ci lib root depth hlib
  rw [hflat] at H
  obtain ⟨H1, H2, H3, H4⟩ := H
  rw [hel] at H1
  simp only [Except.ok.injEq, Prod.mk.injEq] at H1
  obtain ⟨rfl, rfl⟩ := H1
  obtain ⟨B0, B1, B2, B3⟩ := mapNodes_bijective o nets.length nm
  refine ⟨by simp, rfl, ?_, ?_⟩
  · intro d i d' i' l l' n n' t t' x x' e1 e2 e3 e4 e5 e6 e7 e8
    rw [List.getElem?_map, e1] at e5
    rw [List.getElem?_map, e3] at e7
    simp only [Option.map_some, Option.some.injEq] at e5 e7
    subst e5 e7
    rw [List.getElem?_map, e2] at e6
    rw [List.getElem?_map, e4] at e8
    simp only [Option.map_some, Option.some.injEq] at e6 e8
    subst e6 e8
    have k1 := H4 l (List.mem_of_getElem? e1) n (List.mem_of_getElem? e2)
    have k2 := H4 l' (List.mem_of_getElem? e3) n' (List.mem_of_getElem? e4)
    refine ⟨?_, ?_, B1 _ (num_le k1)⟩
    · rw [← num_inj H3 k1 k2]
      exact ⟨B2 _ _ (num_le k1) (num_le k2), fun h => by rw [h]⟩
    · rw [← num_inj H3 k1 (.inl rfl)]
      constructor
      · intro h
        exact B2 _ _ (num_le k1) (by simp [num]) (by rw [h]; exact B0.symm)
      · intro h
        rw [h]; exact B0
  · intro k hk
    obtain ⟨j, hj, hjk⟩ := B3 k hk
    by_cases h0 : j = 0
    · subst h0
      exact ⟨.gnd, .inl rfl, hjk⟩
    · have hlt : j - 1 < nets.length := by omega
      have hm := List.getElem_mem hlt
      refine ⟨nets[j - 1], .inr hm, ?_⟩
      have : num nets nets[j - 1] = j := by
        have hi := List.Nodup.idxOf_getElem H2 (j - 1) hlt
        have hk2 : num nets nets[j - 1] = nets.idxOf nets[j - 1] + 1 := by
          cases hc : nets[j - 1] with
          | gnd => rw [hc] at hm; exact absurd hm H3
          | node p w => rfl
          | inner p j k => rfl
        rw [hk2, hi]; omega
      rw [this, hjk]

/-! ## When there is a flat circuit -/

/-- More allowance for nesting changes nothing. -/
theorem flat_mono (ci : Bool) (lib : List Sub) : ∀ (f : ℕ) (ls : List Line) (env : Name → Option Net) (path : List ℕ) (j f' : ℕ)
    (r : List (List Net) × List Net), f ≤ f' → flat ci lib f env path j ls = some r → flat ci lib f' env path j ls = some r := by
  intro f
  induction f with
  | zero =>
    intro ls
    induction ls with
    | nil => intro env path j f' r _ h; rw [flat] at h ⊢; exact h
    | cons l ls ih =>
      intro env path j f' r hf h
      cases l with
      | dev ns k =>
        rw [flat] at h ⊢
        cases hc : connect env ns with
        | none => simp [hc] at h
        | some a =>
          cases hr : flat ci lib 0 env path (j + 1) ls with
          | none => simp [hc, hr] at h
          | some q =>
            rw [hc, hr] at h
            rw [ih env path (j + 1) f' q hf hr]
            exact h
      | inst o ns => rw [flat] at h; cases h
  | succ f ihf =>
    intro ls
    induction ls with
    | nil => intro env path j f' r _ h; rw [flat] at h ⊢; exact h
    | cons l ls ih =>
      intro env path j f' r hf h
      cases l with
      | dev ns k =>
        rw [flat] at h ⊢
        cases hc : connect env ns with
        | none => simp [hc] at h
        | some a =>
          cases hr : flat ci lib (f + 1) env path (j + 1) ls with
          | none => simp [hc, hr] at h
          | some q =>
            rw [hc, hr] at h
            rw [ih env path (j + 1) f' q hf hr]
            exact h
      | inst o ns =>
        obtain ⟨f', rfl⟩ : ∃ k, f' = k + 1 := ⟨f' - 1, by omega⟩
        rw [flat] at h ⊢
        cases hs : findSub Sub.name lib o with
        | none => simp [hs] at h
        | some s =>
          cases hc : connect env ns with
          | none => simp [hs, hc] at h
          | some a =>
            cases hr : flat ci lib (f + 1) env path (j + 1) ls with
            | none => simp [hs, hc, hr] at h
            | some q =>
              rw [hs, hc, hr] at h
              rw [ih env path (j + 1) (f' + 1) q hf hr]
              simp only at h ⊢
              cases hq : flat ci lib f (inside ci s.ports (path ++ [j]) a) (path ++ [j]) 0 s.body with
              | none => rw [hq] at h; cases h
              | some q2 =>
                rw [hq] at h
                rw [ihf s.body _ _ _ f' q2 (by omega) hq]
                exact h

/-- **C65**: the allowance for nesting does not matter once it is enough. -/
theorem elaborate_depth (ci : Bool) (lib : List Sub) (root : List Line) (d d' : ℕ) (hlib : ∀ s ∈ lib, GoodPorts ci s.ports)
    (hd : d ≤ d') (r : List (List ℕ) × ℕ) (h : elaborate ci lib root d = .ok r) : elaborate ci lib root d' = .ok r := by
  have H := elaborate_flat ci lib root d hlib
  have H' := elaborate_flat ci lib root d' hlib
  unfold flatCircuit at H H'
  cases hf : flat ci lib d (outside ci) [] 0 root with
  | none =>
    rw [hf] at H
    obtain ⟨e, _, he⟩ := H
    rw [h] at he
    cases he
  | some q =>
    rw [hf] at H
    rw [flat_mono ci lib d root _ _ _ d' q hd hf] at H'
    rw [H'.1, ← H.1, h]

/-- A definition that contains itself, directly or through others: there is a set of names such that each definition of one
of them instantiates one of them. -/
def Cyclic (lib : List Sub) (R : Name → Prop) : Prop :=
  ∀ o s, R o → findSub Sub.name lib o = some s → ∃ l ∈ s.body, ∃ o' ns, l = .inst o' ns ∧ R o'

theorem flat_cyclic (ci : Bool) (lib : List Sub) (R : Name → Prop) (hR : Cyclic lib R) : ∀ (f : ℕ) (ls : List Line)
    (env : Name → Option Net) (path : List ℕ) (j : ℕ), (∃ l ∈ ls, ∃ o ns, l = .inst o ns ∧ R o) →
    flat ci lib f env path j ls = none := by
  intro f
  induction f with
  | zero =>
    intro ls
    induction ls with
    | nil => rintro env path j ⟨l, hl, _⟩; cases hl
    | cons l ls ih =>
      rintro env path j ⟨l', hl', o, ns, rfl, ho⟩
      cases l with
      | dev ms k =>
        rw [flat]
        rw [ih env path (j + 1) ⟨_, by simpa using hl', o, ns, rfl, ho⟩]
        cases connect env ms <;> rfl
      | inst o' ms => rw [flat]
  | succ f ihf =>
    intro ls
    induction ls with
    | nil => rintro env path j ⟨l, hl, _⟩; cases hl
    | cons l ls ih =>
      rintro env path j ⟨l', hl', o, ns, rfl, ho⟩
      cases l with
      | dev ms k =>
        rw [flat]
        rw [ih env path (j + 1) ⟨_, by simpa using hl', o, ns, rfl, ho⟩]
        cases connect env ms <;> rfl
      | inst o' ms =>
        rw [flat]
        rcases List.mem_cons.mp hl' with he | hl'
        · obtain ⟨rfl, rfl⟩ := Line.inst.inj he
          cases hs : findSub Sub.name lib o with
          | none => rfl
          | some s =>
            cases connect env ns with
            | none => rfl
            | some a =>
              cases flat ci lib (f + 1) env path (j + 1) ls with
              | none => rfl
              | some r =>
                simp only
                rw [ihf s.body _ _ _ (hR o s ho hs)]
        · rw [ih env path (j + 1) ⟨_, hl', o, ns, rfl, ho⟩]
          cases findSub Sub.name lib o' with
          | none => rfl
          | some s => cases connect env ms <;> rfl

/-- **C65**: a circuit with a recursive definition is never expanded, whatever nesting is allowed: the program, which allows
any, does not come to an end of its own accord (unless something else is wrong first). -/
theorem elaborate_cyclic (ci : Bool) (lib : List Sub) (root : List Line) (hlib : ∀ s ∈ lib, GoodPorts ci s.ports)
    (R : Name → Prop) (hR : Cyclic lib R) (hroot : ∃ l ∈ root, ∃ o ns, l = .inst o ns ∧ R o) :
    ∀ depth, ∃ e, e ≠ .overrun ∧ elaborate ci lib root depth = .error e := by
  intro depth
  have H := elaborate_flat ci lib root depth hlib
  unfold flatCircuit at H
  rw [flat_cyclic ci lib R hR depth root _ _ _ hroot] at H
  exact H

/-- Every instance in `ls` is of a known definition below `k`, and connects all its ports. -/
def Sound (lib : List Sub) (rank : Name → ℕ) (k : ℕ) (ls : List Line) : Prop :=
  ∀ o ns, .inst o ns ∈ ls → rank o < k ∧ ∃ s, findSub Sub.name lib o = some s ∧ s.ports.length ≤ ns.length

theorem connect_some {env : Name → Option Net} : ∀ {ns : List Name}, (∀ w ∈ ns, env w ≠ none) →
    ∃ a, connect env ns = some a ∧ a.length = ns.length := by
  intro ns
  induction ns with
  | nil => intro _; exact ⟨[], rfl, rfl⟩
  | cons w ws ih =>
    intro h
    obtain ⟨a, ha, hl⟩ := ih fun v hv => h v (List.mem_cons_of_mem _ hv)
    obtain ⟨n, hn⟩ := Option.ne_none_iff_exists'.mp (h w (List.mem_cons_self ..))
    exact ⟨n :: a, by rw [connect, hn, ha], by simp [hl]⟩

theorem flat_sound (ci : Bool) (lib : List Sub) (rank : Name → ℕ) (hl : ∀ s ∈ lib, Sound lib rank (rank s.name) s.body) :
    ∀ (f : ℕ) (ls : List Line) (env : Name → Option Net) (path : List ℕ) (j : ℕ), Sound lib rank f ls →
    (∀ l ∈ ls, ∀ w ∈ l.nodes, env w ≠ none) → ∃ r, flat ci lib f env path j ls = some r := by
  intro f
  induction f with
  | zero =>
    intro ls
    induction ls with
    | nil => intro env path j _ _; exact ⟨_, by rw [flat]⟩
    | cons l ls ih =>
      intro env path j hs henv
      cases l with
      | dev ns k =>
        obtain ⟨a, ha, _⟩ := connect_some (henv _ (List.mem_cons_self ..))
        obtain ⟨r, hr⟩ := ih env path (j + 1) (fun o ns h => hs o ns (List.mem_cons_of_mem _ h))
          (fun l h => henv l (List.mem_cons_of_mem _ h))
        simp only [Line.nodes] at ha
        exact ⟨_, by rw [flat, ha, hr]⟩
      | inst o ns => exact absurd (hs o ns (List.mem_cons_self ..)).1 (Nat.not_lt_zero _)
  | succ f ihf =>
    intro ls
    induction ls with
    | nil => intro env path j _ _; exact ⟨_, by rw [flat]⟩
    | cons l ls ih =>
      intro env path j hs henv
      obtain ⟨r, hr⟩ := ih env path (j + 1) (fun o ns h => hs o ns (List.mem_cons_of_mem _ h))
          (fun l h => henv l (List.mem_cons_of_mem _ h))
      obtain ⟨a, ha, hal⟩ := connect_some (henv _ (List.mem_cons_self ..))
      cases l with
      | dev ns k =>
        simp only [Line.nodes] at ha
        exact ⟨_, by rw [flat, ha, hr]⟩
      | inst o ns =>
        simp only [Line.nodes] at ha hal
        obtain ⟨hk, s, hfs, hlen⟩ := hs o ns (List.mem_cons_self ..)
        have hsm : s ∈ lib := List.mem_of_find?_eq_some hfs
        have hname : s.name = o := by
          have := List.find?_some hfs
          simpa using this
        obtain ⟨q, hq⟩ := ihf s.body (inside ci s.ports (path ++ [j]) a) (path ++ [j]) 0
          (fun o' ns' h => by
            obtain ⟨h1, h2⟩ := hl s hsm o' ns' h
            rw [hname] at h1
            exact ⟨by omega, h2⟩)
          (fun l hl w hw => by
            unfold inside
            by_cases h0 : nrm ci w = ['0']
            · rw [if_pos h0]; simp
            · rw [if_neg h0]
              by_cases hp : nrm ci w ∈ s.ports.map (nrm ci)
              · rw [if_pos hp]
                have := List.idxOf_lt_length_of_mem hp
                rw [List.length_map] at this
                rw [List.getElem?_eq_getElem (by omega)]
                simp
              · rw [if_neg hp]; simp)
        exact ⟨(q.1 ++ r.1, ownNets ci s (path ++ [j]) ++ q.2 ++ r.2), by rw [flat, hfs, ha, hr]; simp only; rw [hq]⟩

/-- **C65**: when no definition contains itself, every instance is of a known definition and connects all its ports, the
circuit is expanded. -/
theorem elaborate_ok (ci : Bool) (lib : List Sub) (root : List Line) (hlib : ∀ s ∈ lib, GoodPorts ci s.ports)
    (rank : Name → ℕ) (depth : ℕ) (hl : ∀ s ∈ lib, Sound lib rank (rank s.name) s.body) (hr : Sound lib rank depth root) :
    ∃ devs nets, flatCircuit ci lib root depth = some (devs, nets) ∧
      elaborate ci lib root depth = .ok (devs.map (fun l => l.map (num nets)), nets.length) := by
  obtain ⟨r, h⟩ := flat_sound ci lib rank hl depth root (outside ci) [] 0 hr (fun l _ w _ => by
    unfold outside
    by_cases h0 : nrm ci w = ['0']
    · rw [if_pos h0]; simp
    · rw [if_neg h0]; simp)
  have H := elaborate_flat ci lib root depth hlib
  have e : flatCircuit ci lib root depth = some (r.1, (firsts [['0']] (bodyNames ci root)).map (Net.node []) ++ r.2) := by
    unfold flatCircuit; rw [h]
  rw [e] at H
  exact ⟨_, _, e, H.1⟩

/-! ## Expanding again -/

/-- the card as expansion first sees it -/
def RCard.toT : RCard → TCard
  | .dev d => .dev d.e d.inner
  | .inst o e => .inst o e

/-- an instance, or a device that makes no nodes -/
def RCard.Plain : RCard → Prop
  | .dev d => d.inner = [] ∧ (d.own = none ∨ d.own = some [])
  | .inst _ _ => True

/-- the card after expansion, for such a card -/
def RCard.done : RCard → RCard
  | .dev d => .dev { d with own := some [] }
  | .inst o e => .inst o e

theorem expand_cons_inst (lib : List Defn) (f : ℕ) (o : Name) (t : List ℕ) (cs : List TCard) (tot : ℕ) :
    expand lib f (.inst o t :: cs) tot =
      match expand lib f [.inst o t] tot with
      | .error x => .error x
      | .ok q1 =>
        match expand lib f cs q1.2 with
        | .error x => .error x
        | .ok q2 => .ok (q1.1 ++ q2.1, q2.2) := by
  cases f with
  | zero => rw [expand, expand]
  | succ f =>
    rw [expand, expand]
    cases findSub Defn.name lib o with
    | none => rfl
    | some d =>
      simp only
      cases newSubckt d.proto t tot with
      | error x => rfl
      | ok r =>
        simp only
        cases expand lib f r.1 r.2 with
        | error x => rfl
        | ok q1 =>
          simp only
          rw [expand]
          simp only [List.append_nil]
          cases expand lib (f + 1) cs q1.2 <;> rfl

theorem rexpand_plain (ci : Bool) (lib : List Defn) (f : ℕ) : ∀ (cs : List RCard) (m : NodeMap) (tot : ℕ),
    (∀ c ∈ cs, c.Plain) → rexpand ci lib f cs m tot =
      match expand lib f (cs.map RCard.toT) tot with
      | .error x => .error x
      | .ok q => .ok (q.1, cs.map RCard.done, m, q.2) := by
  intro cs
  induction cs with
  | nil => intro m tot _; simp [rexpand, expand]
  | cons c cs ih =>
    intro m tot h
    have h1 := h c (List.mem_cons_self ..)
    have h2 : ∀ c ∈ cs, c.Plain := fun c hc => h c (List.mem_cons_of_mem _ hc)
    cases c with
    | dev d =>
      obtain ⟨hi, ho⟩ := h1
      have key : makeOwn ci d m tot = ([], m, tot) := by
        unfold makeOwn
        rw [hi]
        rcases ho with ho | ho <;> rw [ho] <;> simp [newRoot]
      simp only [rexpand]
      rw [key, ih m tot h2, List.map_cons, RCard.toT, hi, expand]
      simp only [List.length_nil, newModel]
      cases expand lib f (cs.map RCard.toT) tot with
      | error x => rfl
      | ok q => simp [RCard.done, hi]
    | inst o e =>
      simp only [rexpand]
      rw [List.map_cons, RCard.toT, expand_cons_inst lib f o e (cs.map RCard.toT)]
      cases expand lib f [.inst o e] tot with
      | error x => rfl
      | ok q1 =>
        simp only
        rw [ih m q1.2 h2]
        cases expand lib f (cs.map RCard.toT) q1.2 with
        | error x => rfl
        | ok q => rfl

theorem newRoot_fresh (ci : Bool) : ∀ (ws : List Name) (K : List Name) (tot : ℕ), (K ++ ws.map (nrm ci)).Nodup →
    newRoot ci ws (ofKeys K) tot =
      ((List.range ws.length).map (fun i => tot + i + 1), ofKeys (K ++ ws.map (nrm ci)), tot + ws.length) := by
  intro ws
  induction ws with
  | nil => intro K tot _; simp [newRoot]
  | cons w ws ih =>
    intro K tot h
    have hw : nrm ci w ∉ K := by
      intro hm
      rw [List.nodup_append] at h
      exact h.2.2 _ hm _ (by simp) rfl
    simp only [newRoot]
    rw [newNode_ofKeys, if_neg hw]
    simp only
    rw [ih (K ++ [nrm ci w]) (tot + 1) (by simpa using h)]
    simp only [List.length_cons, List.range_succ_eq_map, List.map_cons, List.map_map, List.append_assoc,
      List.singleton_append, Nat.add_zero]
    refine Prod.ext ?_ (Prod.ext rfl (by simp only; omega))
    simp only [List.cons.injEq, true_and]
    apply List.map_congr_left
    intro i _
    simp only [Function.comp, Nat.succ_eq_add_one]; omega

/-- devices given their numbers in turn, from `tot` on -/
def place : List RDev → ℕ → List RDev
  | [], _ => []
  | d :: ds, tot =>
    { d with own := some ((List.range d.inner.length).map (fun i => tot + i + 1)) } :: place ds (tot + d.inner.length)

def innerNames (ds : List RDev) : List Name := ds.flatMap (·.inner)

theorem rexpand_place (ci : Bool) (lib : List Defn) (f : ℕ) (suf : List RCard) : ∀ (ds : List RDev) (K : List Name) (tot : ℕ),
    (∀ d ∈ ds, d.own = none) → (K ++ (innerNames ds).map (nrm ci)).Nodup →
    rexpand ci lib f (ds.map .dev ++ suf) (ofKeys K) tot =
      match rexpand ci lib f suf (ofKeys (K ++ (innerNames ds).map (nrm ci))) (tot + (innerNames ds).length) with
      | .error x => .error x
      | .ok q => .ok ((place ds tot).map (fun d => d.e ++ d.own.getD []) ++ q.1, (place ds tot).map .dev ++ q.2.1, q.2.2) := by
  intro ds
  induction ds with
  | nil =>
    intro K tot _ _
    simp only [List.map_nil, List.nil_append, innerNames, List.flatMap_nil, List.append_nil, List.length_nil,
      Nat.add_zero, place]
    cases rexpand ci lib f suf (ofKeys K) tot <;> rfl
  | cons d ds ih =>
    intro K tot ho hn
    have h1 : d.own = none := ho d (List.mem_cons_self ..)
    have h2 : ∀ d ∈ ds, d.own = none := fun c hc => ho c (List.mem_cons_of_mem _ hc)
    have e : innerNames (d :: ds) = d.inner ++ innerNames ds := by simp [innerNames]
    rw [e, List.map_append, ← List.append_assoc] at hn
    have hn1 : (K ++ d.inner.map (nrm ci)).Nodup := (List.nodup_append.mp hn).1
    simp only [List.map_cons, List.cons_append, rexpand]
    have key : makeOwn ci d (ofKeys K) tot = newRoot ci d.inner (ofKeys K) tot := by
      unfold makeOwn
      rw [h1]; simp
    rw [key, newRoot_fresh ci d.inner K tot hn1]
    simp only
    rw [ih _ _ h2 hn, e, List.map_append, ← List.append_assoc, List.length_append, ← Nat.add_assoc]
    cases rexpand ci lib f suf (ofKeys (K ++ d.inner.map (nrm ci) ++ (innerNames ds).map (nrm ci)))
      (tot + d.inner.length + (innerNames ds).length) with
    | error x => rfl
    | ok q => simp [place]

theorem rexpand_kept (ci : Bool) (lib : List Defn) (f : ℕ) (suf : List RCard) : ∀ (ds : List RDev) (m : NodeMap) (tot : ℕ),
    (∀ d ∈ ds, d.always = false ∧ ∃ o, d.own = some o) →
    rexpand ci lib f (ds.map .dev ++ suf) m tot =
      match rexpand ci lib f suf m tot with
      | .error x => .error x
      | .ok q => .ok (ds.map (fun d => d.e ++ d.own.getD []) ++ q.1, ds.map .dev ++ q.2.1, q.2.2) := by
  intro ds
  induction ds with
  | nil =>
    intro m tot _
    simp only [List.map_nil, List.nil_append]
    cases rexpand ci lib f suf m tot <;> rfl
  | cons d ds ih =>
    intro m tot h
    obtain ⟨ha, o, ho⟩ := h d (List.mem_cons_self ..)
    simp only [List.map_cons, List.cons_append, rexpand]
    have key : makeOwn ci d m tot = (o, m, tot) := by
      unfold makeOwn
      rw [ha, ho]; simp
    rw [key]
    simp only
    rw [ih m tot fun c hc => h c (List.mem_cons_of_mem _ hc)]
    cases rexpand ci lib f suf m tot with
    | error x => rfl
    | ok q =>
      simp only [ho, Option.getD_some]
      rw [← ho]

theorem place_kept (ds : List RDev) : ∀ tot, (∀ d ∈ ds, d.always = false) →
    ∀ d ∈ place ds tot, d.always = false ∧ ∃ o, d.own = some o := by
  induction ds with
  | nil => intro tot _ d hd; cases hd
  | cons c ds ih =>
    intro tot h d hd
    rw [place] at hd
    rcases List.mem_cons.mp hd with rfl | hd
    · exact ⟨h c (List.mem_cons_self ..), _, rfl⟩
    · exact ih _ (fun c hc => h c (List.mem_cons_of_mem _ hc)) d hd

/-- The first expansion of a circuit as kept between runs gives what `expand` gives. -/
theorem rinit_first (ci : Bool) (lib : List Defn) (f : ℕ) : ∀ (cs : List RCard) (m : NodeMap) (tot : ℕ),
    (∀ d, .dev d ∈ cs → d.own = none) →
    match expand lib f (cs.map RCard.toT) tot with
    | .error x => rexpand ci lib f cs m tot = .error x
    | .ok q => ∃ cs' m', rexpand ci lib f cs m tot = .ok (q.1, cs', m', q.2) := by
  have hroot : ∀ (ws : List Name) (m : NodeMap) (tot : ℕ),
      (newRoot ci ws m tot).1 = (newModel ws.length tot).1 ∧ (newRoot ci ws m tot).2.2 = (newModel ws.length tot).2 := by
    intro ws
    induction ws with
    | nil => intro m tot; exact ⟨rfl, rfl⟩
    | cons w ws ih =>
      intro m tot
      obtain ⟨h1, h2⟩ := ih (newNode ci m w).1 (tot + 1)
      simp only [newRoot, List.length_cons, newModel]
      exact ⟨by rw [h1], h2⟩
  intro cs
  induction cs with
  | nil => intro m tot _; simp [rexpand, expand]
  | cons c cs ih =>
    intro m tot h
    have h2 : ∀ d, .dev d ∈ cs → d.own = none := fun c hc => h c (List.mem_cons_of_mem _ hc)
    cases c with
    | dev d =>
      have h1 := h d (List.mem_cons_self ..)
      have key : makeOwn ci d m tot = newRoot ci d.inner m tot := by
        unfold makeOwn
        rw [h1]; simp
      obtain ⟨k1, k2⟩ := hroot d.inner m tot
      rw [List.map_cons, RCard.toT, expand]
      simp only [rexpand]
      rw [key, k2, k1]
      have IH := ih (newRoot ci d.inner m tot).2.1 (newModel d.inner.length tot).2 h2
      cases hx : expand lib f (cs.map RCard.toT) (newModel d.inner.length tot).2 with
      | error x =>
        rw [hx] at IH
        simp only at IH ⊢
        rw [IH]
      | ok q =>
        rw [hx] at IH
        obtain ⟨cs', m', IH⟩ := IH
        simp only
        rw [IH]
        exact ⟨_, _, rfl⟩
    | inst o e =>
      simp only [rexpand]
      rw [List.map_cons, RCard.toT, expand_cons_inst lib f o e (cs.map RCard.toT)]
      cases expand lib f [.inst o e] tot with
      | error x => rfl
      | ok q1 =>
        simp only
        have IH := ih m q1.2 h2
        cases hx : expand lib f (cs.map RCard.toT) q1.2 with
        | error x =>
          rw [hx] at IH
          simp only at IH ⊢
          rw [IH]
        | ok q =>
          rw [hx] at IH
          obtain ⟨cs', m', IH⟩ := IH
          simp only
          rw [IH]
          exact ⟨_, _, rfl⟩

/-- **C65** (partial): once expanded, a circuit is expanded to the same numbers each time, provided the devices of the
circuit itself that make their own nodes come before all instances and make them once.  What is missing: any order, and
coils; the statement is then false, see `again_collides` and `again_coil`. -/
theorem rinit_again_partial (ci : Bool) (lib : List Defn) (f : ℕ) (ds : List RDev) (suf : List RCard) (K : List Name)
    (hds : ∀ d ∈ ds, d.own = none ∧ d.always = false) (hsuf : ∀ c ∈ suf, c.Plain)
    (hK : (K ++ (innerNames ds).map (nrm ci)).Nodup) (hne : K ≠ [])
    (out : List (List ℕ)) (cs' : List RCard) (m' : NodeMap) (tot : ℕ)
    (h : rinit ci lib f (ds.map .dev ++ suf) (ofKeys K) = .ok (out, cs', m', tot)) :
    rinit ci lib f cs' m' = .ok (out, cs', m', tot) := by
  unfold rinit at h ⊢
  rw [rexpand_place ci lib f suf ds K _ (fun d hd => (hds d hd).1) hK] at h
  rw [rexpand_plain ci lib f suf _ _ hsuf] at h
  have hpos : 0 < K.length := List.length_pos_iff.mpr hne
  have hdone : ∀ c ∈ suf.map RCard.done, c.Plain := by
    intro c hc
    obtain ⟨c0, hc0, rfl⟩ := List.mem_map.mp hc
    have := hsuf c0 hc0
    cases c0 with
    | dev d => exact ⟨this.1, .inr rfl⟩
    | inst o e => trivial
  have htt : (suf.map RCard.done).map RCard.toT = suf.map RCard.toT := by
    rw [List.map_map]
    apply List.map_congr_left
    intro c _
    cases c <;> rfl
  have hdd : (suf.map RCard.done).map RCard.done = suf.map RCard.done := by
    rw [List.map_map]
    apply List.map_congr_left
    intro c _
    cases c <;> rfl
  have htot : howMany (ofKeys (K ++ (innerNames ds).map (nrm ci))) = howMany (ofKeys K) + (innerNames ds).length := by
    rw [howMany_ofKeys, howMany_ofKeys, List.length_append, List.length_map]; omega
  cases hx : expand lib f (suf.map RCard.toT) (howMany (ofKeys K) + (innerNames ds).length) with
  | error x => rw [hx] at h; cases h
  | ok q =>
    rw [hx] at h
    simp only [Except.ok.injEq, Prod.mk.injEq] at h
    obtain ⟨rfl, rfl, rfl, rfl⟩ := h
    rw [rexpand_kept ci lib f _ _ _ _ (place_kept ds _ fun d hd => (hds d hd).2), rexpand_plain ci lib f _ _ _ hdone,
      htt, hdd, htot, hx]

/-! ## A header that is not proper -/

theorem headerLoop_then (ci : Bool) (n : ℕ) (tl ws : List Name) : ∀ (done : List Name) (net : ℕ),
    ((['0'] : Name) :: (done ++ ws.map (nrm ci))).Nodup → done.length + ws.length ≤ n → net = done.length →
    headerLoop ci n (ws ++ tl) done.length net (ofKeys (['0'] :: done)) =
      headerLoop ci n tl (done.length + ws.length) (done.length + ws.length) (ofKeys (['0'] :: (done ++ ws.map (nrm ci)))) := by
  induction ws with
  | nil => intro done net _ _ hnet; simp [hnet]
  | cons w ws ih =>
    intro done net hnd hn hnet
    simp only [List.length_cons] at hn
    have hw : nrm ci w ∉ (['0'] : Name) :: done := by
      intro hmem
      simp only [List.map_cons] at hnd
      have : (((['0'] : Name) :: done) ++ nrm ci w :: ws.map (nrm ci)).Nodup := by simpa using hnd
      rw [List.nodup_append] at this
      exact this.2.2 _ hmem _ (List.mem_cons_self ..) rfl
    rw [List.cons_append, headerLoop, if_neg (by omega), newNode_ofKeys, if_neg hw]
    simp only [List.length_cons, Nat.add_eq_zero_iff, one_ne_zero, and_false, if_false]
    have hh : howMany (ofKeys ((['0'] :: done) ++ [nrm ci w])) = done.length + 1 := by
      rw [howMany_ofKeys]; simp
    rw [hh]
    simp only [ne_eq, not_true_eq_false, if_false]
    have h2 := ih (done ++ [nrm ci w]) (done.length + 1) (by simpa [List.append_assoc] using hnd)
      (by simp; omega) (by simp)
    simp only [List.length_append, List.length_singleton, List.append_assoc, List.singleton_append,
      List.cons_append] at h2
    rw [hnet, if_pos (by omega)]
    simp only [List.cons_append, List.map_cons]
    rw [h2]
    have e : done.length + 1 + ws.length = done.length + (ws.length + 1) := by omega
    rw [e]
    rfl

/-- **C65**, not so: a header whose last port is ground or was there before (`.subckt foo a 0`).  The port is refused with a
warning, but it stays counted. -/
theorem header_skip (ci : Bool) (ps : List Name) (w : Name) (h : GoodPorts ci ps) (hlen : ps.length < 100)
    (hw : nrm ci w ∈ (['0'] : Name) :: ps.map (nrm ci)) :
    header ci (ps ++ [w]) = (ps.length + 1, ofKeys (['0'] :: ps.map (nrm ci))) := by
  unfold header
  rw [nmInit_ofKeys]
  have hmin : min (ps ++ [w]).length portsMax = ps.length + 1 := by simp [portsMax]; omega
  rw [hmin]
  have := headerLoop_then ci (ps.length + 1) [w] ps [] 0
    (by simp only [List.nil_append, List.nodup_cons]; exact ⟨h.2.2, h.2.1⟩) (by simp) rfl
  simp only [List.length_nil, Nat.zero_add, List.nil_append] at this
  rw [this, headerLoop, if_neg (by omega), newNode_ofKeys, if_pos hw]
  have hh : howMany (ofKeys ((['0'] : Name) :: ps.map (nrm ci))) ≠ ps.length + 1 := by
    rw [howMany_ofKeys]; simp
  dsimp only
  rw [if_pos (Nat.lt_succ_self _)]
  by_cases h0 : List.idxOf (nrm ci w) ((['0'] : Name) :: ps.map (nrm ci)) = 0
  · rw [if_pos h0]; rfl
  · rw [if_neg h0, if_pos hh]; rfl

/-- **C65**, not so: with such a header and no other node inside, every instance writes past the end of the table. -/
theorem skip_overrun (ci : Bool) (name : Name) (ps : List Name) (w : Name) (body : List Line) (h : GoodPorts ci ps)
    (hlen : ps.length < 100) (hw : nrm ci w ∈ (['0'] : Name) :: ps.map (nrm ci))
    (hbody : firsts (['0'] :: ps.map (nrm ci)) (bodyNames ci body) = []) (t : List ℕ) (tot : ℕ) :
    newSubckt (parseSub ci ⟨name, ps ++ [w], body⟩) t tot = .error .overrun := by
  have hp : parseSub ci ⟨name, ps ++ [w], body⟩ = { net := ps.length + 1, nm := ofKeys (['0'] :: ps.map (nrm ci)), cards := body.map (cardOf ci (['0'] :: ps.map (nrm ci))) } := by
    unfold parseSub
    simp only
    rw [header_skip ci ps w h hlen hw]
    simp only
    rw [parseBody_spec ci body _ (by rw [List.nodup_cons]; exact ⟨h.2.2, h.2.1⟩), hbody, List.append_nil]
  rw [hp]
  unfold newSubckt
  rw [if_pos (by rw [howMany_ofKeys]; simp)]

/-- **C65**, not so: with such a header the first node inside that is not a port is tied to the terminal of the instance that
corresponds to the refused port. -/
theorem skip_joins (ci : Bool) (name : Name) (ps : List Name) (w : Name) (body : List Line) (h : GoodPorts ci ps)
    (hlen : ps.length < 100) (hw : nrm ci w ∈ (['0'] : Name) :: ps.map (nrm ci)) (v : Name) (vs : List Name)
    (hbody : firsts (['0'] :: ps.map (nrm ci)) (bodyNames ci body) = v :: vs) (t : List ℕ) (tot : ℕ) (junk : ℕ → Option ℕ) :
    find (parseSub ci ⟨name, ps ++ [w], body⟩).nm v = some (ps.length + 1) ∧
    (makeMap (parseSub ci ⟨name, ps ++ [w], body⟩) t tot junk).1 (ps.length + 1) = t[ps.length]? := by
  have hp : parseSub ci ⟨name, ps ++ [w], body⟩ = { net := ps.length + 1, nm := ofKeys ((['0'] :: ps.map (nrm ci)) ++ v :: vs), cards := body.map (cardOf ci ((['0'] :: ps.map (nrm ci)) ++ v :: vs)) } := by
    unfold parseSub
    simp only
    rw [header_skip ci ps w h hlen hw]
    simp only
    rw [parseBody_spec ci body _ (by rw [List.nodup_cons]; exact ⟨h.2.2, h.2.1⟩), hbody]
  have hnd := firsts_nodup (['0'] :: ps.map (nrm ci)) (bodyNames ci body) (by rw [List.nodup_cons]; exact ⟨h.2.2, h.2.1⟩)
  rw [hbody, List.nodup_append] at hnd
  have hv : v ∉ (['0'] :: ps.map (nrm ci) : List Name) := fun hm => hnd.2.2 _ hm _ (List.mem_cons_self ..) rfl
  rw [hp]
  constructor
  · simp only
    rw [find_ofKeys, if_pos (by simp), List.idxOf_append_of_notMem hv]
    simp
  · have hle : ps.length + 1 ≤ howMany (ofKeys ((['0'] :: ps.map (nrm ci)) ++ v :: vs)) := by
      rw [howMany_ofKeys]; simp only [List.length_append, List.length_cons, List.length_map]; omega
    rw [(makeMap_spec _ t tot junk hle).2 _ hle]
    simp

/-! ## Concrete cases -/

section Cases

/-- evaluates a concrete circuit -/
local macro "run" : tactic => `(tactic|
  simp [elaborate, expand, parseBody, setPorts, findSub, rootCard, newSubckt, parseSub, header, headerLoop, newNode, nmInit,
    find, howMany, toLower, portsMax, makeMap, forRange, forUp, mapCards, mapTerms, upd, newModel, rinit, rexpand, newRoot, makeOwn])

/-- two definitions, one using the other: `.subckt h a b / r1 a m / r2 m b / m1 m (makes one node)`,
`.subckt g p / x1 p n h / x2 n 0 h` -/
def libG : List Sub :=
  [⟨['h'], [['a'], ['b']], [.dev [['a'], ['m']] [], .dev [['m'], ['b']] [], .dev [['m']] [['i']]]⟩,
   ⟨['g'], [['P']], [.inst ['h'] [['p'], ['n']], .inst ['h'] [['n'], ['0']]]⟩]

theorem libG_good : ∀ s ∈ libG, GoodPorts true s.ports := by
  intro s hs
  simp only [libG, List.mem_cons, List.not_mem_nil, or_false] at hs
  rcases hs with rfl | rfl <;> exact ⟨by decide, by decide, by decide⟩

def rootG : List Line := [.dev [['1'], ['0']] [], .inst ['g'] [['1']], .inst ['g'] [['2']]]

/-- the flat circuit of it, computed by the model: six nets inside each `g` -/
example : elaborate true libG rootG 2 =
    .ok ([[1, 0], [1, 4], [4, 3], [4, 5], [3, 6], [6, 0], [6, 7], [2, 9], [9, 8], [9, 10], [8, 11], [11, 0], [11, 12]], 12) := by
  unfold libG rootG; run

/-- hypotheses of `elaborate_ok`, and so of `elaborate_flat` and `elaborate_rows` -/
example : ∃ devs nets, flatCircuit true libG rootG 2 = some (devs, nets) ∧
    elaborate true libG rootG 2 = .ok (devs.map (fun l => l.map (num nets)), nets.length) := by
  refine elaborate_ok true libG rootG libG_good (fun o => if o = ['g'] then 1 else 0) 2 ?_ ?_
  · intro s hs
    simp only [libG, List.mem_cons, List.not_mem_nil, or_false] at hs
    rcases hs with rfl | rfl
    · intro o ns h; simp at h
    · intro o ns h
      simp only [List.mem_cons, Line.inst.injEq, List.not_mem_nil, or_false] at h
      rcases h with ⟨rfl, rfl⟩ | ⟨rfl, rfl⟩ <;> exact ⟨by decide, _, rfl, by decide⟩
  · intro o ns h
    simp only [rootG, List.mem_cons, Line.inst.injEq, List.not_mem_nil, or_false, reduceCtorEq, false_or] at h
    rcases h with ⟨rfl, rfl⟩ | ⟨rfl, rfl⟩ <;> exact ⟨by decide, _, rfl, by decide⟩

example : ∃ r, elaborate true libG rootG 2 = .ok r ∧ elaborate true libG rootG 9 = .ok r := by
  refine ⟨([[1, 0], [1, 4], [4, 3], [4, 5], [3, 6], [6, 0], [6, 7], [2, 9], [9, 8], [9, 10], [8, 11], [11, 0], [11, 12]], 12), ?_, ?_⟩
  · unfold libG rootG; run
  · exact elaborate_depth true libG rootG 2 9 libG_good (by omega) _ (by unfold libG rootG; run)

/-- a definition that contains itself through another -/
example : ∀ depth, ∃ e, e ≠ .overrun ∧
    elaborate true [⟨['u'], [['a']], [.inst ['v'] [['a']]]⟩, ⟨['v'], [['a']], [.dev [['a']] [], .inst ['u'] [['a']]]⟩]
      [.inst ['u'] [['1']]] depth = .error e := by
  refine elaborate_cyclic true _ _ ?_ (fun o => o = ['u'] ∨ o = ['v']) ?_ ⟨_, List.mem_singleton.mpr rfl, _, _, rfl, .inl rfl⟩
  · intro s hs
    simp only [List.mem_cons, List.not_mem_nil, or_false] at hs
    rcases hs with rfl | rfl <;> exact ⟨by decide, by decide, by decide⟩
  · rintro o s (rfl | rfl) h
    · have : s = ⟨['u'], [['a']], [.inst ['v'] [['a']]]⟩ := by simpa [findSub] using h.symm
      subst this
      exact ⟨_, List.mem_singleton.mpr rfl, _, _, rfl, .inr rfl⟩
    · have : s = ⟨['v'], [['a']], [.dev [['a']] [], .inst ['u'] [['a']]]⟩ := by simpa [findSub] using h.symm
      subst this
      exact ⟨_, List.mem_cons_of_mem _ (List.mem_singleton.mpr rfl), _, _, rfl, .inl rfl⟩

/-- a port left open but used: an error; a terminal too many: ignored -/
example : elaborate true [⟨['f'], [['a'], ['b']], [.dev [['a'], ['b']] []]⟩] [.inst ['f'] [['1']]] 1 = .error .needMore ∧
    elaborate true [⟨['f'], [['a'], ['b']], [.dev [['a'], ['b']] []]⟩] [.inst ['f'] [['1'], ['2'], ['3']]] 1 = .ok ([[1, 2]], 3) := by
  constructor <;> run

/-- **C65**, not so: `.subckt f a 0 / r a n`, `x1 1 2 f`: the flat circuit has three nets, the node inside being its own;
the program connects it to node 2. -/
theorem skipped_port_shorts :
    flatCircuit true [⟨['f'], [['a'], ['0']], [.dev [['a'], ['n']] []]⟩] [.inst ['f'] [['1'], ['2']]] 1 =
      some ([[.node [] ['1'], .node [0] ['n']]], [.node [] ['1'], .node [] ['2'], .node [0] ['n']]) ∧
    elaborate true [⟨['f'], [['a'], ['0']], [.dev [['a'], ['n']] []]⟩] [.inst ['f'] [['1'], ['2']]] 1 = .ok ([[1, 2]], 2) := by
  constructor
  · simp [flatCircuit, flat, findSub, connect, outside, inside, nrm, toLower, ownNets, firsts, bodyNames, Line.nodes]
  · run

/-- **C65**, not so: `.subckt f a 0 / r a 0`, `x1 1 2 f`: a write outside the table. -/
theorem skipped_port_overrun :
    elaborate true [⟨['f'], [['a'], ['0']], [.dev [['a'], ['0']] []]⟩] [.inst ['f'] [['1'], ['2']]] 1 = .error .overrun := by
  run

/-- hypotheses of `header_skip`, `skip_overrun` and `skip_joins` -/
example : GoodPorts true [['a'], ['b']] ∧ nrm true ['A'] ∈ (['0'] : Name) :: [['a'], ['b']].map (nrm true) ∧
    header true [['a'], ['b'], ['A']] = (3, ofKeys [['0'], ['a'], ['b']]) :=
  ⟨⟨by decide, by decide, by decide⟩, by decide,
    header_skip true [['a'], ['b']] ['A'] ⟨by decide, by decide, by decide⟩ (by decide) (by decide)⟩

def defF : List Defn := [⟨['f'], parseSub true ⟨['f'], [['a']], [.dev [['a'], ['n']] []]⟩⟩]

/-- **C65**, not so: an instance with one node inside, then a device of the circuit itself that makes a node.  The first
time all is well.  The second time the device keeps the number 3, while the instance's node inside is given 3 as well. -/
theorem again_collides :
    ∃ cs' m', rinit true defF 1 [.inst ['f'] [1], .dev ⟨[1], [['m', '.', 'i']], none, false⟩] (ofKeys [['0'], ['1']]) =
        .ok ([[1, 2], [1, 3]], cs', m', 3) ∧
      rinit true defF 1 cs' m' = .ok ([[1, 3], [1, 3]], cs', m', 3) := by
  refine ⟨[.inst ['f'] [1], .dev ⟨[1], [['m', '.', 'i']], some [3], false⟩], ofKeys [['0'], ['1'], ['m', '.', 'i']], ?_, ?_⟩
  · unfold defF ofKeys; run
  · unfold defF ofKeys; run

/-- **C65**, not so: the name of that node in the map of the circuit leads to another number: 2, which is the node inside the
instance. -/
theorem model_node_name :
    ∃ cs' m', rinit true defF 1 [.inst ['f'] [1], .dev ⟨[1], [['m', '.', 'i']], none, false⟩] (ofKeys [['0'], ['1']]) =
        .ok ([[1, 2], [1, 3]], cs', m', 3) ∧ find m' ['m', '.', 'i'] = some 2 := by
  refine ⟨[.inst ['f'] [1], .dev ⟨[1], [['m', '.', 'i']], some [3], false⟩], ofKeys [['0'], ['1'], ['m', '.', 'i']], ?_, ?_⟩
  · unfold defF ofKeys; run
  · decide

/-- **C65**, not so: a coil of a coupled pair makes its node anew each time: from the second time on there is one unknown more than there are
nets, and nothing is connected to it. -/
theorem again_coil :
    ∃ cs' m', rinit true [] 0 [.dev ⟨[1, 0], [['l', '.', 'b']], none, true⟩] (ofKeys [['0'], ['1']]) =
        .ok ([[1, 0, 2]], cs', m', 2) ∧
      ∃ cs'' , rinit true [] 0 cs' m' = .ok ([[1, 0, 3]], cs'', m', 3) := by
  refine ⟨[.dev ⟨[1, 0], [['l', '.', 'b']], some [2], true⟩], ofKeys [['0'], ['1'], ['l', '.', 'b']], ?_,
    [.dev ⟨[1, 0], [['l', '.', 'b']], some [3], true⟩], ?_⟩
  · unfold ofKeys; run
  · unfold ofKeys; run

/-- hypotheses of `rinit_again_partial` -/
example : ∃ cs' m', rinit true defF 1 [.dev ⟨[1], [['m', '.', 'i']], none, false⟩, .inst ['f'] [1]] (ofKeys [['0'], ['1']]) =
        .ok ([[1, 2], [1, 3]], cs', m', 3) ∧
      rinit true defF 1 cs' m' = .ok ([[1, 2], [1, 3]], cs', m', 3) := by
  refine ⟨[.dev ⟨[1], [['m', '.', 'i']], some [2], false⟩, .inst ['f'] [1]], ofKeys [['0'], ['1'], ['m', '.', 'i']], ?_, ?_⟩
  · unfold defF ofKeys; run
  · refine rinit_again_partial true defF 1 [⟨[1], [['m', '.', 'i']], none, false⟩] [.inst ['f'] [1]] [['0'], ['1']] ?_ ?_
      (by decide) (by decide) _ _ _ _ ?_
    · intro d hd; rw [List.mem_singleton] at hd; subst hd; exact ⟨rfl, rfl⟩
    · intro c hc; rw [List.mem_singleton] at hc; subst hc; trivial
    · unfold defF ofKeys; run

end Cases

end Gnucap.Subckt
