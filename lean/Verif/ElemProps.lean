import Mathlib.Data.List.GetD
import Verif.ElemModel
import Verif.LoadProps

/-! # C58, C59: devices load only what they reserved; the AC equations are solved -/
namespace Gnucap.Elem
open Gnucap.Mat Gnucap.Load

theorem KindOK.mono {reqs reqs' : List (ℕ × ℕ)} (h : ∀ p ∈ reqs, p ∈ reqs') {k : Kind} (hk : KindOK reqs k) :
    KindOK reqs' k := by
  intro p hp h1 h2
  rcases hk p hp h1 h2 with h3 | ⟨h3, h4, h5⟩
  · exact Or.inl h3
  · exact Or.inr ⟨h3, h4, h5.imp (h _) (h _)⟩

theorem wantExtendedFrom_spec (seen : List ℕ) : ∀ (ns : List ℕ) (a b : ℕ), b ∈ ns → a ∈ seen ++ ns → a ≠ b →
    (a, b) ∈ wantExtendedFrom seen ns ∨ (b, a) ∈ wantExtendedFrom seen ns := by
  intro ns
  induction ns generalizing seen with
  | nil => intro a b hb; simp at hb
  | cons n rest ih =>
    intro a b hb ha hne
    simp only [wantExtendedFrom, List.mem_append, List.mem_map, Prod.mk.injEq]
    rw [List.mem_cons] at hb
    rcases hb with rfl | hb
    · rw [List.mem_append, List.mem_cons] at ha
      rcases ha with ha | ha | ha
      · exact Or.inr (Or.inl ⟨a, ha, rfl, rfl⟩)
      · exact absurd ha hne
      · rcases ih (seen ++ [b]) b a ha (by simp) (Ne.symm hne) with h | h
        · exact Or.inr (Or.inr h)
        · exact Or.inl (Or.inr h)
    · rcases ih (seen ++ [n]) a b hb (by simpa using ha) hne with h | h
      · exact Or.inl (Or.inr h)
      · exact Or.inr (Or.inr h)

/-- `*_iwant_matrix_extended` reserves every pair of the nodes. -/
theorem wantExtended_all (ns : List ℕ) (a b : ℕ) (ha : a ∈ ns) (hb : b ∈ ns) (h1 : a ≠ 0) (h2 : b ≠ 0) :
    a = b ∨ Reserved (wantExtended ns) a b := by
  by_cases h : a = b
  · exact Or.inl h
  · exact Or.inr ⟨h1, h2, wantExtendedFrom_spec [] ns a b hb (by simpa using ha) h⟩

theorem ok_extended (ns : List ℕ) (k : Kind) (h : ∀ p ∈ k.pairs, p.1 ∈ ns ∧ p.2 ∈ ns) : KindOK (wantExtended ns) k :=
  fun p hp h1 h2 => wantExtended_all ns p.1 p.2 (h p hp).1 (h p hp).2 h1 h2

theorem ok_listed (reqs : List (ℕ × ℕ)) (k : Kind) (h : ∀ p ∈ k.pairs, p ∈ reqs ∨ (p.2, p.1) ∈ reqs) : KindOK reqs k :=
  fun p hp h1 h2 => Or.inr ⟨h1, h2, h p hp⟩

theorem ok_ports (o1 o2 : ℕ) (ctl : List (ℕ × ℕ)) (p : ℕ × ℕ) (hp : p ∈ ctl) :
    KindOK (wantExtended (portNodes o1 o2 ctl)) (.active o1 o2 p.1 p.2) := by
  apply ok_extended
  have h1 : p.1 ∈ portNodes o1 o2 ctl := by
    simp only [portNodes, List.mem_cons, List.mem_flatMap]
    exact Or.inr (Or.inr ⟨p, hp, by simp⟩)
  have h2 : p.2 ∈ portNodes o1 o2 ctl := by
    simp only [portNodes, List.mem_cons, List.mem_flatMap]
    exact Or.inr (Or.inr ⟨p, hp, by simp⟩)
  have h3 : o1 ∈ portNodes o1 o2 ctl := by simp [portNodes]
  have h4 : o2 ∈ portNodes o1 o2 ctl := by simp [portNodes]
  simp only [Kind.pairs, List.mem_cons, List.not_mem_nil, or_false, forall_eq_or_imp, forall_eq]
  exact ⟨⟨h3, h1⟩, ⟨h3, h2⟩, ⟨h4, h1⟩, h4, h2⟩

theorem ok_ports_out (o1 o2 : ℕ) (ctl : List (ℕ × ℕ)) : KindOK (wantExtended (portNodes o1 o2 ctl)) (.passive o1 o2) := by
  apply ok_extended
  simp [Kind.pairs, portNodes]

/-- one load after the other: either its pairs are listed, or all nodes were reserved -/
local macro "ok_one" : tactic => `(tactic| first
  | (simp only [List.not_mem_nil, false_imp_iff, implies_true]; done)
  | (apply ok_listed; simp [Kind.pairs, Dev.trWants, Dev.acWants, wantPassive, wantActive]; done)
  | (apply ok_extended; simp [Kind.pairs]; done))

/-- a device's own DC and transient loads -/
theorem dev_tr (d : Dev) : ∀ k ∈ d.trLoads, KindOK d.trWants k := by
  cases d
  case polyG o1 o2 ctl =>
    intro k hk
    simp only [Dev.trLoads, List.mem_append, List.mem_cons, List.not_mem_nil, or_false, List.mem_map] at hk
    rcases hk with (rfl | rfl) | ⟨p, hp, rfl⟩
    · exact ok_ports_out o1 o2 ctl
    · intro p hp; simp [Kind.pairs] at hp
    · exact ok_ports o1 o2 ctl p hp
  case polyCap o1 o2 ctl =>
    intro k hk
    simp only [Dev.trLoads, List.mem_append, List.mem_cons, List.not_mem_nil, or_false, List.mem_map] at hk
    rcases hk with (rfl | rfl) | ⟨p, hp, rfl⟩
    · exact ok_ports_out o1 o2 ctl
    · intro p hp; simp [Kind.pairs] at hp
    · exact ok_ports o1 o2 ctl p hp
  case meter => intro k hk; simp [Dev.trLoads] at hk
  all_goals
    simp only [Dev.trLoads, List.forall_mem_cons, List.forall_mem_nil, and_true]
    repeat' apply And.intro
    all_goals ok_one

/-- a device's own AC loads -/
theorem dev_ac (d : Dev) : ∀ k ∈ d.acLoads, KindOK d.acWants k := by
  cases d
  case polyG o1 o2 ctl =>
    intro k hk
    simp only [Dev.acLoads, List.mem_cons, List.not_mem_nil, or_false, List.mem_map] at hk
    rcases hk with rfl | ⟨p, hp, rfl⟩
    · exact ok_ports_out o1 o2 ctl
    · exact ok_ports o1 o2 ctl p hp
  case polyCap o1 o2 ctl =>
    intro k hk
    simp only [Dev.acLoads, List.mem_cons, List.not_mem_nil, or_false, List.mem_map] at hk
    rcases hk with rfl | ⟨p, hp, rfl⟩
    · exact ok_ports_out o1 o2 ctl
    · exact ok_ports o1 o2 ctl p hp
  case meter => intro k hk; simp [Dev.acLoads] at hk
  all_goals
    simp only [Dev.acLoads, List.forall_mem_cons, List.forall_mem_nil, and_true]
    repeat' apply And.intro
    all_goals ok_one

/-- Every load of every circuit was reserved by the circuit: transient. -/
theorem card_tr : ∀ (c : Card), ∀ k ∈ c.trLoads, KindOK c.trWants k
  | .dev d => by simp only [Card.trLoads, Card.trWants]; exact dev_tr d
  | .sub cs => by
    intro k hk
    simp only [Card.trLoads, List.mem_flatMap] at hk
    obtain ⟨c, hc, hk⟩ := hk
    refine KindOK.mono ?_ (card_tr c k hk)
    intro p hp
    simp only [Card.trWants, List.mem_flatMap]
    exact ⟨c, hc, hp⟩
  | .logic out cs => by
    intro k hk
    simp only [Card.trLoads, List.mem_append, List.mem_cons, List.not_mem_nil, or_false, List.mem_flatMap] at hk
    rcases hk with (rfl | rfl) | ⟨c, hc, hk⟩
    · intro p hp; simp [Kind.pairs] at hp
    · intro p hp; simp [Kind.pairs] at hp
    · refine KindOK.mono ?_ (card_tr c k hk)
      intro p hp
      simp only [Card.trWants, List.mem_flatMap]
      exact ⟨c, hc, hp⟩
  | .other => by intro k hk; simp [Card.trLoads] at hk

/-- ... and AC -/
theorem card_ac : ∀ (c : Card), ∀ k ∈ c.acLoads, KindOK c.acWants k
  | .dev d => by simp only [Card.acLoads, Card.acWants]; exact dev_ac d
  | .sub cs => by
    intro k hk
    simp only [Card.acLoads, List.mem_flatMap] at hk
    obtain ⟨c, hc, hk⟩ := hk
    refine KindOK.mono ?_ (card_ac c k hk)
    intro p hp
    simp only [Card.acWants, List.mem_flatMap]
    exact ⟨c, hc, hp⟩
  | .logic out cs => by
    intro k hk
    simp only [Card.acLoads, List.mem_flatMap] at hk
    obtain ⟨c, hc, hk⟩ := hk
    refine KindOK.mono ?_ (card_ac c k hk)
    intro p hp
    simp only [Card.acWants, List.mem_flatMap]
    exact ⟨c, hc, hp⟩
  | .other => by intro k hk; simp [Card.acLoads] at hk

theorem writes_ok (reqs : List (ℕ × ℕ)) (k : Kind) (h : KindOK reqs k) (r c : ℕ) (hw : (r, c) ∈ writes k) :
    0 < r ∧ 0 < c ∧ r ∈ kindNodes k ∧ c ∈ kindNodes k ∧ iwantAll reqs (max r c) ≤ min r c := by
  have key : ∀ p q, (p, q) ∈ k.pairs ∨ (q, p) ∈ k.pairs ∨ p = q → p > 0 → q > 0 → iwantAll reqs (max p q) ≤ min p q := by
    intro p q hpq h1 h2
    rcases hpq with hpq | hpq | hpq
    · exact reserved_profile reqs p q (h (p, q) hpq (by omega) (by omega))
    · rw [max_comm, min_comm]
      exact reserved_profile reqs q p (h (q, p) hpq (by omega) (by omega))
    · exact reserved_profile reqs p q (Or.inl hpq)
  cases k with
  | passive i j =>
    simp only [writes] at hw
    simp only [kindNodes, List.mem_cons, List.not_mem_nil, or_false]
    split at hw
    · split at hw
      · simp only [List.mem_cons, List.not_mem_nil, or_false, Prod.mk.injEq] at hw
        rcases hw with ⟨rfl, rfl⟩ | ⟨rfl, rfl⟩ | ⟨rfl, rfl⟩ | ⟨rfl, rfl⟩
        · exact ⟨by omega, by omega, by simp, by simp, key _ _ (by simp) (by omega) (by omega)⟩
        · exact ⟨by omega, by omega, by simp, by simp, key _ _ (by simp) (by omega) (by omega)⟩
        · exact ⟨by omega, by omega, by simp, by simp, key _ _ (by simp [Kind.pairs]) (by omega) (by omega)⟩
        · exact ⟨by omega, by omega, by simp, by simp, key _ _ (by simp [Kind.pairs]) (by omega) (by omega)⟩
      · simp only [List.mem_cons, List.not_mem_nil, or_false, Prod.mk.injEq] at hw
        obtain ⟨rfl, rfl⟩ := hw
        exact ⟨by omega, by omega, by simp, by simp, key _ _ (by simp) (by omega) (by omega)⟩
    · split at hw
      · simp only [List.mem_cons, List.not_mem_nil, or_false, Prod.mk.injEq] at hw
        obtain ⟨rfl, rfl⟩ := hw
        exact ⟨by omega, by omega, by simp, by simp, key _ _ (by simp) (by omega) (by omega)⟩
      · simp at hw
  | active r1 r2 c1 c2 =>
    have hx : ((r = r1 ∧ c = c1) ∨ (r = r1 ∧ c = c2) ∨ (r = r2 ∧ c = c1) ∨ (r = r2 ∧ c = c2)) ∧ r > 0 ∧ c > 0 := by
      simp only [writes] at hw
      by_cases a1 : r1 > 0 <;> by_cases a2 : r2 > 0 <;> by_cases b1 : c1 > 0 <;> by_cases b2 : c2 > 0 <;>
        simp [a1, a2, b1, b2] at hw <;> omega
    simp only [kindNodes, List.mem_cons, List.not_mem_nil, or_false]
    refine ⟨hx.2.1, hx.2.2, by omega, by omega, key _ _ (Or.inl ?_) hx.2.1 hx.2.2⟩
    rcases hx.1 with ⟨rfl, rfl⟩ | ⟨rfl, rfl⟩ | ⟨rfl, rfl⟩ | ⟨rfl, rfl⟩ <;> simp [Kind.pairs]
  | couple i j =>
    have hx : ((r = i ∧ c = j) ∨ (r = j ∧ c = i)) ∧ r > 0 ∧ c > 0 := by
      simp only [writes] at hw
      by_cases a1 : j > 0 <;> by_cases a2 : i > 0 <;> simp [a1, a2] at hw <;> omega
    simp only [kindNodes, List.mem_cons, List.not_mem_nil, or_false]
    refine ⟨hx.2.1, hx.2.2, by omega, by omega, key _ _ ?_ hx.2.1 hx.2.2⟩
    rcases hx.1 with ⟨rfl, rfl⟩ | ⟨rfl, rfl⟩ <;> simp [Kind.pairs]
  | inode o1 o2 j =>
    have hx : ((r = o1 ∧ c = j) ∨ (r = j ∧ c = o1) ∨ (r = o2 ∧ c = j) ∨ (r = j ∧ c = o2)) ∧ r > 0 ∧ c > 0 := by
      simp only [writes] at hw
      by_cases a1 : j > 0 <;> by_cases a2 : o1 > 0 <;> by_cases a3 : o2 > 0 <;> simp [a1, a2, a3] at hw <;> omega
    simp only [kindNodes, List.mem_cons, List.not_mem_nil, or_false]
    refine ⟨hx.2.1, hx.2.2, by omega, by omega, key _ _ ?_ hx.2.1 hx.2.2⟩
    rcases hx.1 with ⟨rfl, rfl⟩ | ⟨rfl, rfl⟩ | ⟨rfl, rfl⟩ | ⟨rfl, rfl⟩ <;> simp [Kind.pairs]
  | diag i =>
    simp only [writes] at hw
    split at hw
    · simp only [List.mem_cons, List.not_mem_nil, or_false, Prod.mk.injEq] at hw
      obtain ⟨rfl, rfl⟩ := hw
      exact ⟨by omega, by omega, by simp [kindNodes], by simp [kindNodes], key _ _ (by simp) (by omega) (by omega)⟩
    · simp at hw
  | point i j =>
    simp only [writes] at hw
    split at hw
    · simp only [List.mem_cons, List.not_mem_nil, or_false, Prod.mk.injEq] at hw
      obtain ⟨rfl, rfl⟩ := hw
      exact ⟨by omega, by omega, by simp [kindNodes], by simp [kindNodes],
        key _ _ (by simp [Kind.pairs]) (by omega) (by omega)⟩
    · simp at hw
  | source o1 o2 => simp [writes] at hw
  | srcPoint p => simp [writes] at hw

/-- C58: whatever the circuit, every cell written by any load of its DC and transient analysis lies inside the block
allocated for the matrix, at a position that was reserved. -/
theorem tr_writes_inside (n : ℕ) (ckt : List Card) (k : Kind) (hk : k ∈ ckt.flatMap Card.trLoads)
    (hn : ∀ m ∈ kindNodes k, m ≤ n) (r c : ℕ) (hw : (r, c) ∈ writes k) :
    let low := iwantAll (ckt.flatMap Card.trWants)
    low (max r c) ≤ min r c ∧ 0 ≤ cellIndex low r c ∧ cellIndex low r c < nzcount low n := by
  have h1 := card_tr (.sub ckt) k (by simpa [Card.trLoads] using hk)
  simp only [Card.trWants] at h1
  obtain ⟨_, _, h4, h5, h6⟩ := writes_ok _ k h1 r c hw
  exact ⟨h6, cellIndex_in_bounds _ n r c (hn r h4) (hn c h5) h6⟩

/-- C58, the AC matrix -/
theorem ac_writes_inside (n : ℕ) (ckt : List Card) (k : Kind) (hk : k ∈ ckt.flatMap Card.acLoads)
    (hn : ∀ m ∈ kindNodes k, m ≤ n) (r c : ℕ) (hw : (r, c) ∈ writes k) :
    let low := iwantAll (ckt.flatMap Card.acWants)
    low (max r c) ≤ min r c ∧ 0 ≤ cellIndex low r c ∧ cellIndex low r c < nzcount low n := by
  have h1 := card_ac (.sub ckt) k (by simpa [Card.acLoads] using hk)
  simp only [Card.acWants] at h1
  obtain ⟨_, _, h4, h5, h6⟩ := writes_ok _ k h1 r c hw
  exact ⟨h6, cellIndex_in_bounds _ n r c (hn r h4) (hn c h5) h6⟩

section
variable {F : Type _} [Field F] [DecidableEq F]

/-- `writes` lists all cells a load touches: every other one keeps its value. -/
theorem stamp_elsewhere (k : Kind) (d : F) (m : Loaded F) (iv : ℕ → F) (r c : ℕ) (h : (r, c) ∉ writes k) :
    (stamp k d m iv).1.a r c = m.a r c := by
  rw [stamp_a]
  have : (coefM k r c : F) = 0 := by
    cases k with
    | passive i j =>
      simp only [coefM, inc]
      simp only [writes] at h
      by_cases a1 : j = 0 <;> by_cases a2 : i = 0 <;> by_cases e1 : r = i <;> by_cases e2 : r = j <;>
        by_cases e3 : c = i <;> by_cases e4 : c = j <;> simp_all [Nat.pos_iff_ne_zero]
    | active r1 r2 c1 c2 =>
      simp only [coefM, inc]
      simp only [writes] at h
      by_cases a1 : r1 = 0 <;> by_cases a2 : r2 = 0 <;> by_cases a3 : c1 = 0 <;> by_cases a4 : c2 = 0 <;>
        by_cases e1 : r = r1 <;> by_cases e2 : r = r2 <;>
        by_cases e3 : c = c1 <;> by_cases e4 : c = c2 <;> simp_all [Nat.pos_iff_ne_zero]
    | couple i j =>
      simp only [coefM, inc]
      simp only [writes] at h
      by_cases a1 : j = 0 <;> by_cases a2 : i = 0 <;> by_cases e1 : r = i <;> by_cases e2 : r = j <;>
        by_cases e3 : c = i <;> by_cases e4 : c = j <;> simp_all [Nat.pos_iff_ne_zero]
    | inode o1 o2 j =>
      simp only [coefM, inc]
      simp only [writes] at h
      by_cases a1 : j = 0 <;> by_cases a2 : o1 = 0 <;> by_cases a3 : o2 = 0 <;> by_cases e1 : r = o1 <;>
        by_cases e2 : r = o2 <;> by_cases e5 : r = j <;>
        by_cases e3 : c = o1 <;> by_cases e4 : c = o2 <;> by_cases e6 : c = j <;> simp_all [Nat.pos_iff_ne_zero]
    | diag i =>
      simp only [coefM, inc]
      simp only [writes] at h
      by_cases a2 : i = 0 <;> by_cases e1 : r = i <;> by_cases e3 : c = i <;> simp_all [Nat.pos_iff_ne_zero]
    | point i j =>
      simp only [coefM, inc]
      simp only [writes] at h
      by_cases a1 : j = 0 <;> by_cases a2 : i = 0 <;> by_cases e1 : r = i <;> by_cases e4 : c = j <;>
        simp_all [Nat.pos_iff_ne_zero]
    | source o1 o2 => rfl
    | srcPoint p => rfl
  rw [this, mul_zero, add_zero]
end

/-! ## the equations -/

section
variable {F : Type _} [Field F] [LinearOrder F] [IsStrictOrderedRing F]

/-- C58 with C08/C09: for every circuit, with the reservations its cards made and with the slots of its cards, after every
loading iteration of every history the voltages solve the nodal equations of the circuit (`iteration_solves_circuit`, whose
hypothesis about reservations is hereby discharged). -/
theorem circuit_iteration_solves (n : ℕ) (ckt : List Card) (minp tol : F) (hmin : minp ≠ 0) (st : St F)
    (hflag : st.inc = .no)
    (hkind : ∀ k, (st.slots k).kind = (ckt.flatMap Card.trLoads).getD k (.srcPoint 0))
    (hlost : ∀ k, (st.slots k).lost = 0 ∧ (st.slots k).nlost = 0)
    (evs : List (Ev F)) (o : IterIn F) (stage : Stage)
    (hl : stageOf (ckt.flatMap Card.trLoads).length (evs ++ [.iter o]) .idle = some stage) :
    let N := (ckt.flatMap Card.trLoads).length
    let t := runEv n (iwantAll (ckt.flatMap Card.trWants)) minp tol N (evs ++ [.iter o]) st
    ∃ e : ℕ → F, (∀ k, e k = 0 ∨ e k = minp) ∧
      Solves n (withDiag (circuitM N t.slots (fun k => (t.slots k).old - (t.slots k).lost) t.base) e) t.v
        (circuitI N t.slots (fun k => (t.slots k).old - (t.slots k).lost)) := by
  refine iteration_solves_circuit n _ minp tol hmin _ st ⟨hflag, ?_, hlost⟩ evs o stage hl
  intro k
  rw [hkind k]
  by_cases hk : k < (ckt.flatMap Card.trLoads).length
  · rw [List.getD_eq_getElem _ _ hk]
    have h := card_tr (.sub ckt) ((ckt.flatMap Card.trLoads)[k]) (by simp only [Card.trLoads]; exact List.getElem_mem hk)
    simp only [Card.trWants] at h
    exact h
  · rw [List.getD_eq_default _ _ (by omega)]
    intro p hp; simp [Kind.pairs] at hp
end

section
variable {F : Type _} [Field F] [DecidableEq F]

/-- Specification: the nodal matrix of the loaded values ... -/
def acM (loads : List (Kind × F)) (r c : ℕ) : F := (loads.map (fun kd => kd.2 * coefM kd.1 r c)).sum

/-- ... and the source currents. -/
def acI (loads : List (Kind × F)) (r : ℕ) : F := (loads.map (fun kd => kd.2 * coefI kd.1 r)).sum

theorem ac_loaded (loads : List (Kind × F)) : ∀ (s : Loaded F × (ℕ → F)) (r c : ℕ),
    (loads.foldl (fun (s : Loaded F × (ℕ → F)) kd => stamp kd.1 kd.2 s.1 s.2) s).1.a r c = s.1.a r c + acM loads r c ∧
    (loads.foldl (fun (s : Loaded F × (ℕ → F)) kd => stamp kd.1 kd.2 s.1 s.2) s).2 r = s.2 r + acI loads r := by
  induction loads with
  | nil => intro s r c; simp [acM, acI]
  | cons x rest ih =>
    intro s r c
    rw [List.foldl_cons]
    obtain ⟨h1, h2⟩ := ih (stamp x.1 x.2 s.1 s.2) r c
    rw [h1, h2, stamp_a, stamp_i]
    simp only [acM, acI, List.map_cons, List.sum_cons]
    constructor <;> ring

/-- C59: `AC::solve` solves the nodal equations of the circuit.  Whatever the matrix held before, whatever values the
devices load and in whatever order, the resulting voltages satisfy the equations given by the sum of the loads; a pivot
that is exactly zero is replaced by `minp` (`OPT::pivtol`), which adds it on the diagonal. -/
theorem acSolve_solves (n : ℕ) (ckt : List Card) (minp : F) (hmin : minp ≠ 0) (loads : List (Kind × F))
    (hl : ∀ kd ∈ loads, kd.1 ∈ ckt.flatMap Card.acLoads) (m : Loaded F) :
    ∃ e : ℕ → F, (∀ k, e k = 0 ∨ e k = minp) ∧
      Solves n (withDiag (acM loads) e) (acSolve n (iwantAll (ckt.flatMap Card.acWants)) minp loads m).1 (acI loads) := by
  set reqs := ckt.flatMap Card.acWants with hreqs
  have hok : ∀ kd ∈ loads, KindOK reqs kd.1 := by
    intro kd hkd
    have := card_ac (.sub ckt) kd.1 (by simpa [Card.acLoads] using hl kd hkd)
    simpa only [Card.acWants] using this
  set s := loads.foldl (fun (s : Loaded F × (ℕ → F)) kd => stamp kd.1 kd.2 s.1 s.2)
    ((clearWith n 0 m, fun _ => 0) : Loaded F × (ℕ → F)) with hs
  have hsa : ∀ r c, s.1.a r c = acM loads r c := by
    intro r c
    rw [(ac_loaded loads _ r c).1]
    simp [clearWith]
  have hsi : ∀ r, s.2 r = acI loads r := by
    intro r
    rw [(ac_loaded loads _ r 0).2]
    simp
  have wf := iwantAll_wf n reqs
  have heq := luInplace_spec n (iwantAll reqs) minp s.1.a wf
  have hx : (acSolve n (iwantAll reqs) minp loads m).1 =
      fbsub n (iwantAll reqs) (luInplace n (iwantAll reqs) minp s.1.a) s.2 := rfl
  rw [hx]
  set lu := luInplace n (iwantAll reqs) minp s.1.a
  have hp : ∀ k, 1 ≤ k → k ≤ n → lu k k ≠ 0 := by
    intro k h1 h2
    rw [(heq k h1 h2).diag]; exact pivot_ne_zero hmin
  refine ⟨pivotFix (iwantAll reqs) minp s.1.a lu, ?_, ?_⟩
  · intro k; unfold pivotFix; split
    · exact Or.inr rfl
    · exact Or.inl rfl
  · intro r h1 h2
    have hrow := solve_of_triangular n _ minp s.1.a lu wf heq hp s.2 _ _
      (fwdSub_spec n (iwantAll reqs) lu s.2 wf).1
      (backSub_spec n (iwantAll reqs) lu (fwdSub n (iwantAll reqs) lu s.2) wf).1 r h1 h2
    rw [← hsi r, ← hrow]
    apply Finset.sum_congr rfl
    intro c hc
    unfold fbsub
    congr 1
    unfold withDiag
    congr 1
    rw [sget_spec _ (fun k => (iwantAll_spec reqs k).1)]
    by_cases hlow : iwantAll reqs (max r c) ≤ min r c
    · rw [if_pos hlow, hsa]
    · rw [if_neg hlow]
      unfold acM
      apply List.sum_eq_zero
      intro x hx
      rw [List.mem_map] at hx
      obtain ⟨kd, hkd, rfl⟩ := hx
      rw [coefM_profile reqs kd.1 (hok kd hkd) r c hlow, mul_zero]
end

/-! ## the hypotheses are met -/

/-- two coupled coils, a controlled source inside of a subcircuit, a gate and a line -/
def demoCkt : List Card :=
  [.dev (.voltageSource 1 0), .dev (.inductorC 1 2 5), .dev (.inductorC 3 0 6), .dev (.mutual 5 6),
   .sub [.dev (.resistor 2 0), .sub [.dev (.vcvs 4 0 3 2), .dev (.polyG 4 0 [(1, 2), (3, 0)])]],
   .logic 4 [.dev (.capacitor 4 0)], .dev (.transline 1 0 4 0), .other]

theorem demo_loads : demoCkt.flatMap Card.trLoads =
    [.passive 1 0, .source 1 0, .inode 1 2 5, .diag 5, .srcPoint 5, .inode 3 0 6, .diag 6, .srcPoint 6,
     .couple 5 6, .source 5 6, .srcPoint 6, .srcPoint 5, .passive 2 0, .source 2 0, .passive 4 0, .active 4 0 3 2,
     .source 4 0, .passive 4 0, .source 4 0, .active 4 0 1 2, .active 4 0 3 0, .diag 4, .srcPoint 4,
     .passive 4 0, .source 4 0, .passive 1 0, .passive 4 0, .source 0 1, .source 0 4] := by
  simp [demoCkt, Card.trLoads, Dev.trLoads]

example : Kind.inode 1 2 5 ∈ demoCkt.flatMap Card.trLoads ∧ (∀ m ∈ kindNodes (.inode 1 2 5), m ≤ 6) ∧
    (5, 1) ∈ writes (.inode 1 2 5) := by
  rw [demo_loads]
  exact ⟨by simp, by simp [kindNodes], by decide⟩

example : ∃ st : St ℚ, st.inc = .no ∧
    (∀ k, (st.slots k).kind = (demoCkt.flatMap Card.trLoads).getD k (.srcPoint 0)) ∧
    (∀ k, (st.slots k).lost = 0 ∧ (st.slots k).nlost = 0) ∧
    stageOf (demoCkt.flatMap Card.trLoads).length
      [.beginStep, .iter { gmin := 1, damp := 1, vals := fun k => k }] .idle = some .iterating := by
  refine ⟨{ inc := .no, mat := ⟨fun _ _ => 3, fun _ => true⟩, iv := fun _ => 0, lu := fun _ _ => 7, v := fun _ => 1,
            slots := fun k => ⟨(demoCkt.flatMap Card.trLoads).getD k (.srcPoint 0), 2, 5, 9, 0, 0⟩, base := 0 },
    rfl, fun _ => rfl, fun _ => ⟨rfl, rfl⟩, ?_⟩
  rw [demo_loads]
  decide

example : ∀ kd ∈ [(Kind.passive 1 0, (2 : ℚ)), (.active 4 0 0 1, 3), (.couple 5 6, 1)],
    kd.1 ∈ demoCkt.flatMap Card.acLoads := by
  simp [demoCkt, Card.acLoads, Dev.acLoads]

end Gnucap.Elem
