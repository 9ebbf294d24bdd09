import Verif.NameProps

/-! # What modify, fault and delete change, and names that find too much or too little (C66) -/
set_option linter.unusedSimpArgs false
namespace Gnucap.Names
open Gnucap.Wmatch

/-! ## modify and fault -/

/-- the search for a name without dots -/
theorem findBranch_plain (ci : Bool) {s : Name} (h1 : s ≠ []) (h2 : '.' ∉ s) (parts : List Part) (start : ℕ) :
    match findBranch ci s.length s parts start [] with
    | some r => ∃ i p, r = [i] ∧ start ≤ i ∧ parts[i]? = some p ∧ wmatch ci p.label s = true ∧
        ∀ j q, start ≤ j → j < i → parts[j]? = some q → wmatch ci q.label s = false
    | none => ∀ j q, start ≤ j → parts[j]? = some q → wmatch ci q.label s = false := by
  have H := findBranch_spec ci s.length s parts start [] h1
    (by intro h; exact h2 (List.mem_of_mem_head? h)) (le_refl _)
  rw [words_plain h2] at H
  simp only [List.reverse_singleton, List.nil_append] at H
  cases hf : findBranch ci s.length s parts start [] with
  | none =>
    rw [hf] at H
    intro j q hj hq
    have := H j [] hj
    by_contra hm
    exact this ⟨q, hq, by simpa using hm⟩
  | some r =>
    rw [hf] at H
    obtain ⟨i, is, hr, hi, hL, hmin⟩ := H
    cases is with
    | cons k ks => exact absurd hL (by simp [Leads])
    | nil =>
      obtain ⟨p, hp, hm⟩ := hL
      refine ⟨i, p, hr, hi, hp, hm, ?_⟩
      intro j q hj hji hq
      by_contra hc
      have := hmin j [] hj ⟨q, hq, by simpa using hc⟩
      rcases this with h | ⟨h, _⟩ <;> omega

/-- **C66**: for a name without dots, `modify` and `fault` change every part whose label matches, once each, in the order of
the list, and no other. -/
theorem modify_plain (ci : Bool) {s : Name} (h1 : s ≠ []) (h2 : '.' ∉ s) (root : List Part) :
    ∀ n start, root.length < n + start →
      (∀ r ∈ modifyHits ci s root n [] start, ∃ i, r = [i] ∧ start ≤ i) ∧
      (∀ i, [i] ∈ modifyHits ci s root n [] start ↔ start ≤ i ∧ ∃ p, root[i]? = some p ∧ wmatch ci p.label s = true) ∧
      (modifyHits ci s root n [] start).Pairwise fun a b => a.headD 0 < b.headD 0 := by
  intro n
  induction n with
  | zero =>
    intro start hs
    refine ⟨by simp [modifyHits], ?_, by simp [modifyHits]⟩
    intro i
    simp only [modifyHits, List.not_mem_nil, false_iff]
    rintro ⟨hi, p, hp, _⟩
    rw [List.getElem?_eq_none (by omega)] at hp
    cases hp
  | succ n ih =>
    intro start hs
    have F := findBranch_plain ci h1 h2 root start
    rw [modifyHits]
    simp only [partsAt]
    cases hf : findBranch ci s.length s root start [] with
    | none =>
      rw [hf] at F
      refine ⟨by simp, ?_, by simp⟩
      intro i
      simp only [List.not_mem_nil, false_iff]
      rintro ⟨hi, p, hp, hm⟩
      rw [F i p hi hp] at hm
      cases hm
    | some r =>
      rw [hf] at F
      obtain ⟨i, p, rfl, hi, hp, hm, hmin⟩ := F
      simp only [List.dropLast_singleton, List.getLast?_singleton, Option.getD_some]
      obtain ⟨I1, I2, I3⟩ := ih (i + 1) (by omega)
      refine ⟨?_, ?_, ?_⟩
      · intro r hr
        rcases List.mem_cons.mp hr with rfl | hr
        · exact ⟨i, rfl, hi⟩
        · obtain ⟨k, hk, hk2⟩ := I1 r hr; exact ⟨k, hk, by omega⟩
      · intro j
        rw [List.mem_cons, I2]
        constructor
        · rintro (h | ⟨h, p', hp', hm'⟩)
          · obtain rfl : j = i := by simpa using h
            exact ⟨hi, p, hp, hm⟩
          · exact ⟨by omega, p', hp', hm'⟩
        · rintro ⟨h, p', hp', hm'⟩
          rcases Nat.lt_trichotomy j i with hji | rfl | hji
          · rw [hmin j p' h hji hp'] at hm'; cases hm'
          · exact .inl rfl
          · exact .inr ⟨by omega, p', hp', hm'⟩
      · rw [List.pairwise_cons]
        refine ⟨?_, I3⟩
        intro r hr
        obtain ⟨k, rfl, hk⟩ := I1 r hr
        simp only [List.headD_cons]
        omega

/-! ## Nodes inside instances -/

/-- the node maps of the parts, all the way down -/
inductive Inner : List Part → Part → Prop
  | here {ps : List Part} {p : Part} (h : p ∈ ps) : Inner ps p
  | deep {ps : List Part} {q p : Part} (h : q ∈ ps) (h' : Inner q.parts p) : Inner ps p

/-- **C66**: the list of parts of an instance is made with a node map that has only ground in it (e_cardlist.cc:40-57), so
whatever the name, the only nodes found are those of the outermost level, and ground. -/
theorem inner_nodes_lost (ci : Bool) (s : Name) (nodes : List Name) (root : List Part)
    (h : ∀ p, Inner root p → p.nodes = [['0']]) (path : List ℕ) (n : Name)
    (hm : .node path n ∈ addBranches ci s nodes root []) : path = [] ∨ n = ['0'] := by
  rw [addBranches_spec] at hm
  obtain ⟨us, _, hf⟩ := hm
  suffices H : ∀ us nodes parts path0, (∀ p, Inner parts p → p.nodes = [['0']]) → Found ci us nodes parts path0 (.node path n) →
      (us.length ≤ 1 → path = path0) ∧ (nodes = [['0']] ∨ 2 ≤ us.length → n = ['0']) by
    obtain ⟨H1, H2⟩ := H us nodes root [] h hf
    rcases Nat.lt_or_ge us.length 2 with h | h
    · exact .inl (H1 (by omega))
    · exact .inr (H2 (.inr h))
  intro us
  induction us with
  | nil => intro _ _ _ _ hf; cases hf
  | cons c us ih =>
    intro nodes parts path0 hi hf
    cases us with
    | nil =>
      unfold Found Here at hf
      by_cases hw : ∃ x ∈ c, x = '*' ∨ x = '?'
      · rw [if_pos hw] at hf
        rcases hf with ⟨m, hm, hn0, _, ho⟩ | ⟨_, _, _, _, ho⟩
        · cases ho
          refine ⟨fun _ => rfl, ?_⟩
          rintro (rfl | h)
          · exact List.mem_singleton.mp hm
          · simp at h
        · cases ho
      · rw [if_neg hw] at hf
        rcases hf with ⟨m, hm, ho⟩ | ⟨_, _, _, _, _, ho⟩
        · cases ho
          refine ⟨fun _ => rfl, ?_⟩
          rintro (rfl | h)
          · unfold nodeFind at hm
            split at hm
            · rename_i hin
              obtain rfl := Option.some.inj hm
              exact List.mem_singleton.mp hin
            · split at hm
              · rename_i hin
                obtain rfl := Option.some.inj hm
                simp only [Bool.and_eq_true, decide_eq_true_eq] at hin
                exact List.mem_singleton.mp hin.2
              · cases hm
          · simp at h
        · cases ho
    | cons w us =>
      obtain ⟨i, p, hp, _, _, _, hf⟩ := hf
      have hpm := List.mem_of_getElem? hp
      have := (ih p.nodes p.parts (path0 ++ [i]) (fun q hq => hi q (.deep hpm hq)) hf).2 (.inl (hi p (.here hpm)))
      exact ⟨by simp, fun _ => this⟩

/-! ## delete -/

/-- **C66**: the printed name of a part of the outermost level deletes that part and no other. -/
theorem delete_printed (ci : Bool) (root : List Part) (i : ℕ) (h : Nameable ci root [i]) (gas : ℕ) :
    ∃ s, longLabel root [i] = some s ∧ deleteOne ci gas s root = .done (root.eraseIdx i) true := by
  obtain ⟨p, hp, hd, hw, hf⟩ := h
  refine ⟨p.label, by rw [longLabel, hp]; rfl, ?_⟩
  have hlt : i < root.length := by
    by_contra hc
    rw [List.getElem?_eq_none (by omega)] at hp
    cases hp
  have hi : root.findIdx? (fun q => same ci q.label p.label) = some i := by
    rw [List.findIdx?_eq_some_iff_getElem]
    refine ⟨hlt, ?_, ?_⟩
    · rw [List.getElem?_eq_getElem hlt] at hp
      rw [Option.some.inj hp]
      simp [same]
    · intro j hj
      rw [hf j root[j] hj (List.getElem?_eq_getElem (by omega))]
      simp
  have hwild : wild p.label = false := by
    rw [Bool.eq_false_iff]
    intro hc
    obtain ⟨c, hc1, hc2⟩ := (wild_iff p.label).mp hc
    rcases hc2 with h | h
    · exact (hw c hc1).1 h
    · exact (hw c hc1).2 h
  rw [deleteOne, cut_none.mpr hd]
  simp only [hwild, Bool.false_eq_true, if_false, hi]

/-- **C66**: after deleting a pattern no part of that level matches it, and the others are still there, in order. -/
theorem delete_pattern (ci : Bool) (root : List Part) {s : Name} (hs : '.' ∉ s) (hw : ∃ c ∈ s, c = '*' ∨ c = '?') (gas : ℕ) :
    ∃ root' did, deleteOne ci gas s root = .done root' did ∧ root'.Sublist root ∧
      (∀ p, p ∈ root' ↔ p ∈ root ∧ wmatch ci p.label s = false) ∧ (did = true ↔ ∃ p ∈ root, wmatch ci p.label s = true) := by
  rw [deleteOne, cut_none.mpr hs]
  simp only [(wild_iff s).mpr hw, if_true]
  refine ⟨_, _, rfl, List.filter_sublist, ?_, ?_⟩
  · intro p; simp [List.mem_filter]
  · simp [List.any_eq_true]

/-- **C66**: names with a dot never delete anything from devices: the parts of an instance stay. -/
theorem delete_not_in_devices (ci : Bool) (root : List Part) (hr : ∀ p ∈ root, p.dev = true) {s : Name} (hs : '.' ∈ s) (gas : ℕ) :
    deleteOne ci gas s root = .done root false := by
  have key : ∀ rec i, deleteIn rec root i = .done root false := by
    intro rec i
    unfold deleteIn
    cases hp : root[i]? with
    | none => rfl
    | some p => simp only [hr p (List.mem_of_getElem? hp), if_true]
  cases hc : cut s with
  | none => exact absurd hs (cut_none.mp hc)
  | some r =>
    cases hc2 : cutLast s with
    | none => exact absurd hs (cutLast_none.mp hc2)
    | some q =>
      cases gas with
      | zero => rw [deleteOne, hc, hc2]
      | succ gas =>
        rw [deleteOne, hc, hc2]
        simp only
        split
        · exact key _ _
        · split
          · exact key _ _
          · rfl

/-- every card that is no device has a list of parts, `n` levels down -/
def Solid : ℕ → List Part → Prop
  | 0, _ => True
  | n + 1, ps => ∀ p ∈ ps, p.dev = false → p.hasSub = true ∧ Solid n p.parts

/-- **C66, partial**: `delete` does not run into a null pointer if what is no device is a definition of a subcircuit. -/
theorem delete_safe_partial (ci : Bool) : ∀ (gas : ℕ) (s : Name) (root : List Part), Solid gas root → deleteOne ci gas s root ≠ .crash := by
  intro gas
  induction gas with
  | zero =>
    intro s root _ h
    rw [deleteOne] at h
    split at h
    · cases h
    · split at h
      · cases h
      · split at h <;> cases h
  | succ gas ih =>
    intro s root hS h
    have key : ∀ t i, deleteIn (deleteOne ci gas t) root i ≠ .crash := by
      intro t i hk
      unfold deleteIn at hk
      cases hp : root[i]? with
      | none => rw [hp] at hk; cases hk
      | some p =>
        rw [hp] at hk
        simp only at hk
        cases hd : p.dev with
        | true => rw [hd] at hk; cases hk
        | false =>
          obtain ⟨h1, h2⟩ := hS p (List.mem_of_getElem? hp) hd
          rw [hd, h1] at hk
          simp only [Bool.false_eq_true, if_false, if_true] at hk
          cases hx : deleteOne ci gas t p.parts with
          | crash => exact ih t p.parts h2 hx
          | done l b => rw [hx] at hk; cases hk
    rw [deleteOne] at h
    split at h
    · simp only at h
      split at h
      · exact key _ _ h
      · split at h
        · exact key _ _ h
        · cases h
    · split at h
      · cases h
      · split at h <;> cases h

theorem addBranches_dot {ci : Bool} {s : Name} {r q : Name × Name} (h1 : cut s = some r) (h2 : cutLast s = some q) (nodes : List Name)
    (parts : List Part) (path : List ℕ) :
    addBranches ci s nodes parts path =
      (parts.zipIdx.flatMap fun p =>
        if p.1.dev && p.1.hasSub && wmatch ci p.1.label r.1 then addBranches ci r.2 p.1.nodes p.1.parts (path ++ [p.2]) else []) ++
      (parts.zipIdx.flatMap fun p =>
        if p.1.dev && p.1.hasSub && wmatch ci p.1.label q.2 then addBranches ci q.1 p.1.nodes p.1.parts (path ++ [p.2]) else []) := by
  rw [addBranches]
  split
  · rename_i a b ha hb
    rw [h1] at ha; rw [h2] at hb
    cases ha; cases hb
    rfl
  · rename_i hn
    exact (hn r q h1 h2).elim

theorem addBranches_plain {ci : Bool} {s : Name} (h : cut s = none) (nodes : List Name) (parts : List Part) (path : List ℕ) :
    addBranches ci s nodes parts path = addHere ci s nodes parts path := by
  rw [addBranches]
  split
  · rename_i a b ha hb
    rw [h] at ha
    cases ha
  · rfl

/-! ## Names that find too much or too little -/

def nm (s : String) : Name := s.toList
def leaf (s : String) : Part := .mk (nm s) true false [] []
def box (s : String) (ps : List Part) : Part := .mk (nm s) true true [nm "0"] ps

local macro "run" : tactic =>
  `(tactic| simp [addHere, findBranch, modifyHits, partsAt, deleteOne, deleteIn, cut, cutLast, wild, same, nodeFind, longLabel, leaf, box, nm,
      Part.label, Part.dev, Part.hasSub, Part.nodes, Part.parts, List.zipIdx, List.findIdx?, List.findIdx?.go, wmatch, fixCase, List.flatMap])

/-- a circuit where the pieces of `a.b.c` name something in three orders -/
def three : List Part :=
  [box "a" [box "b" [leaf "c"], box "c" [leaf "b"]], box "c" [box "b" [leaf "a"]]]

/-- **C66 fails**: beside the two orders the comments speak of (u_prblst.cc:228-249), outermost first and outermost last, a
name with two dots also finds mixtures: `a.b.c` finds `b` inside `c` inside `a`. -/
theorem mixed_order_found :
    Obj.part [0, 1, 0] ∈ addBranches false (nm "a.b.c") [] three [] ∧ longLabel three [0, 1, 0] = some (nm "a.c.b") := by
  constructor
  · rw [addBranches_spec]
    refine ⟨[nm "a", nm "c", nm "b"], ?_, ?_⟩
    · exact .front (nm "a") (.back (nm "c") (.one (nm "b")) : Readings ([nm "b"] ++ [nm "c"]) _)
    · exact ⟨0, box "a" [box "b" [leaf "c"], box "c" [leaf "b"]], rfl, rfl, rfl, by decide +kernel, 1, box "c" [leaf "b"], rfl, rfl, rfl,
        by decide +kernel, by unfold Found Here; rw [if_neg (by decide +kernel)]; exact .inr ⟨0, leaf "b", rfl, by decide +kernel, by intro j _ h; omega, rfl⟩⟩
  · decide +kernel

/-- **C66 fails**: a part can be put into the list twice: `x1.x1` in one order and in the other is the same part
(u_prblst.cc:228-249). -/
theorem found_twice :
    addBranches false (nm "x.x") [] [box "x" [leaf "x"]] [] = [.part [0, 0], .part [0, 0]] := by
  rw [addBranches_dot (r := (nm "x", nm "x")) (q := (nm "x", nm "x")) (by decide +kernel) (by decide +kernel)]
  simp only [addBranches_plain (show cut (nm "x") = none by decide +kernel)]
  run

/-- **C66 fails**: the printed name of a part inside an instance is not found by `list`, `modify`, `fault` and `dc`, which
take the outermost name last (findbr.cc:54-66). -/
theorem printed_name_not_found :
    longLabel [box "x" [leaf "r"]] [0, 0] = some (nm "x.r") ∧
    findBranch false 3 (nm "x.r") [box "x" [leaf "r"]] 0 [] = none ∧
    findBranch false 3 (nm "r.x") [box "x" [leaf "r"]] 0 [] = some [0, 0] := by
  run

/-- **C66 fails**: a pattern for parts of several instances changes only the one in the first: the search goes on in the list
the part was found in (c_modify.cc:96-123, findbr.cc:92-103), with the whole pattern. -/
theorem modify_only_first_instance :
    modifyHits false (nm "r.x*") [box "x1" [leaf "r"], box "x2" [leaf "r"]] 5 [] 0 = [[0, 0]] := by
  run

/-- **C66 fails**: for the same reason `modify` changes a part that the name does not lead to: with `r.x`, after `r` in `x`
also `r` in the `x` inside `x`. -/
theorem modify_too_deep :
    modifyHits false (nm "r.x") [box "x" [leaf "r", box "x" [leaf "r"]]] 5 [] 0 = [[0, 0], [0, 1, 0]] ∧
    ¬ Leads false (words (nm "r.x")).reverse [box "x" [leaf "r", box "x" [leaf "r"]]] [0, 1, 0] := by
  constructor
  · run
  · intro h
    have e : (words (nm "r.x")).reverse = [nm "x", nm "r"] := by decide +kernel
    rw [e] at h
    obtain ⟨p, _, _, _, h⟩ := h
    simp [Leads] at h

/-- **C66 fails**: `findbranch` does not ask whether a container is a device, so it also finds parts of the definition of a
subcircuit, and before those of the instance if the definition has the matching name (findbr.cc:80-90); probes do not. -/
theorem definition_found :
    findBranch false 3 (nm "r.s*") [.mk (nm "sub") false true [] [leaf "r"], box "s1" [leaf "r"]] 0 [] = some [0, 0] ∧
    addBranches false (nm "r.s*") [] [.mk (nm "sub") false true [] [leaf "r"], box "s1" [leaf "r"]] [] = [.part [1, 0]] := by
  constructor
  · run
  · rw [addBranches_dot (r := (nm "r", nm "s*")) (q := (nm "r", nm "s*")) (by decide +kernel) (by decide +kernel)]
    simp only [addBranches_plain (show cut (nm "r") = none by decide +kernel), addBranches_plain (show cut (nm "s*") = none by decide +kernel)]
    run

/-- **C66 fails**: `delete` with the name of a model as the container calls itself with a null pointer
(c_delete.cc:61-72). -/
theorem delete_in_model_crashes :
    deleteOne false 3 (nm "d.r") [.mk (nm "d") false false [] []] = .crash := by
  run

/-! ## Examples -/

example : Nameable false [leaf "r", box "x" [leaf "c", leaf "r"]] [1, 1] := by
  refine ⟨box "x" [leaf "c", leaf "r"], rfl, by decide +kernel, rfl, rfl, leaf "r", rfl, by decide +kernel, by decide +kernel, ?_⟩
  intro j p hj hp
  obtain rfl : j = 0 := by omega
  obtain rfl : leaf "c" = p := by simpa [box, Part.parts] using hp
  decide +kernel

example : addBranches false (nm "x.r") [nm "1"] [leaf "r", box "x" [leaf "c", leaf "r"]] [] = [.part [1, 1]] := by
  rw [addBranches_dot (r := (nm "x", nm "r")) (q := (nm "x", nm "r")) (by decide +kernel) (by decide +kernel)]
  simp only [addBranches_plain (show cut (nm "r") = none by decide +kernel), addBranches_plain (show cut (nm "x") = none by decide +kernel)]
  run

example : addBranches false (nm "r*") [nm "1", nm "r9"] [leaf "r1", leaf "c1", leaf "r2"] [] =
    [.node [] (nm "r9"), .part [0], .part [2]] := by
  rw [addBranches_plain (by decide +kernel)]
  run

example : findBranch false 6 (nm "r.y.x") [leaf "x", box "x" [box "y" [leaf "c", leaf "r"]]] 0 [] = some [1, 0, 1] := by run

example : nm "r.y.x" ≠ [] ∧ (nm "r.y.x").head? ≠ some '.' := by decide +kernel

example : modifyHits false (nm "r*") [leaf "r1", leaf "c1", leaf "r2"] 4 [] 0 = [[0], [2]] := by run

example : nm "r*" ≠ [] ∧ '.' ∉ nm "r*" ∧ ∃ c ∈ nm "r*", c = '*' ∨ c = '?' := by decide +kernel

/-- the hypothesis of `inner_nodes_lost` holds of boxes in boxes -/
example : ∀ p, Inner [box "x" [box "y" []]] p → p.nodes = [['0']] := by
  intro p h
  cases h with
  | here h => obtain rfl := List.mem_singleton.mp h; rfl
  | deep h h' =>
    obtain rfl := List.mem_singleton.mp h
    cases h' with
    | here h => obtain rfl := List.mem_singleton.mp h; rfl
    | deep h h' =>
      obtain rfl := List.mem_singleton.mp h
      cases h' with
      | here h => cases h
      | deep h => cases h

example : Solid 2 [leaf "r", .mk (nm "sub") false true [] [leaf "r"]] := by
  intro p hp hd
  simp only [List.mem_cons, List.not_mem_nil, or_false] at hp
  rcases hp with rfl | rfl
  · cases hd
  · refine ⟨rfl, ?_⟩
    intro q hq hd
    obtain rfl := List.mem_singleton.mp hq
    cases hd

example : ∀ p ∈ [leaf "r", box "x" [leaf "r"]], p.dev = true := by
  intro p hp
  simp only [List.mem_cons, List.not_mem_nil, or_false] at hp
  rcases hp with rfl | rfl <;> rfl

end Gnucap.Names
