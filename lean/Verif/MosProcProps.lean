import Verif.MosProcModel
import Mathlib.Tactic.Linarith
import Mathlib.Tactic.FieldSimp
import Mathlib.Tactic.Ring
import Mathlib.Tactic.NormNum

/-!
# C102: what a transistor's process gives

`Want` says what a card asks for in one state of the session: given values as given, others from oxide, doping, gate and
temperature by the textbook.  It knows nothing of cards that are written to.
-/

namespace Gnucap.MosProc

/-- what is on the card, in the units of the manual (cm) -/
structure Data where
  vto : Option ℝ
  gamma : Option ℝ
  phi : Option ℝ
  tox : Option ℝ
  nsub : Option ℝ
  kp : Option ℝ
  nss : ℝ
  uo : ℝ
  /-- degrees Celsius -/
  tnom : ℝ
  /-- 1 opposite to the substrate, -1 same, 0 metal -/
  gate : ℤ

/-- thickness of the oxide, if any -/
noncomputable def Ox (lv : Level) (d : Data) : Option ℝ :=
  match d.tox, lv with
  | some x, .two => some (if 0 < x then x else 1e-7)
  | none, .two => some 1e-7
  | some x, _ => if 0 < x then some x else none
  | none, _ => none

/-- doping of the substrate in 1/m^3, if more than intrinsic -/
noncomputable def Dope (d : Data) : Option ℝ :=
  match d.nsub with
  | some n => if 1.45e10 ≤ n then some (n * 1e6) else none
  | none => none

/-- capacitance of the oxide for each square meter -/
noncomputable def Cap (x : ℝ) : ℝ := 3.9 * 8.854214871e-12 / x

/-- surface potential: twice the Fermi potential of the substrate, not less than 0.1 V -/
noncomputable def Surface (tnom n : ℝ) : ℝ :=
  max 0.1 (2 * (1.3806226e-23 * (tnom + 273.15) / 1.6021918e-19) * Real.log (n / 1.45e16))

noncomputable def WantPhi (lv : Level) (d : Data) : ℝ :=
  match d.phi, Ox lv d, Dope d with
  | some p, _, _ => p
  | none, some _, some n => Surface d.tnom n
  | none, _, _ => 0.6

noncomputable def WantGamma (lv : Level) (d : Data) : ℝ :=
  match d.gamma, Ox lv d, Dope d with
  | some g, _, _ => g
  | none, some x, some n => Real.sqrt (2 * (11.7 * 8.854214871e-12) * 1.6021918e-19 * n) / Cap x
  | none, _, _ => 0

/-- energy gap of silicon in eV -/
noncomputable def Gap (tnom : ℝ) : ℝ := 1.16 - 7.02e-4 * (tnom + 273.15) ^ 2 / (tnom + 273.15 + 1108)

/-- work function of the gate less that of the substrate, counted towards the gate of an n channel -/
noncomputable def Work (pol : ℝ) (gate : ℤ) (eg phi : ℝ) : ℝ :=
  if gate = 0 then pol * (-0.05 - eg / 2) - phi / 2 else if 0 < gate then -(eg + phi) / 2 else (eg - phi) / 2

noncomputable def WantVto (lv : Level) (pol : ℝ) (d : Data) : Option ℝ :=
  match d.vto, Ox lv d, Dope d with
  | some v, _, _ => some (pol * v)
  | none, some x, some _ =>
    if 0 ≤ WantPhi lv d then
      some (Work pol d.gate (Gap d.tnom) (WantPhi lv d) - pol * (1.6021918e-19 * (d.nss * 1e4)) / Cap x
        + WantPhi lv d + WantGamma lv d * Real.sqrt (WantPhi lv d))
    else none
  | none, _, _ => some 0

noncomputable def WantKp (lv : Level) (d : Data) : ℝ :=
  match d.kp, Ox lv d, lv with
  | some k, _, _ => k
  | none, some x, .six => d.uo * 1e-4 * Cap x / 2
  | none, some x, _ => d.uo * 1e-4 * Cap x
  | none, none, .six => 5e-5
  | none, none, _ => 2e-5

noncomputable def WantCox (lv : Level) (d : Data) : ℝ :=
  match Ox lv d with
  | some x => Cap x
  | none => 0

/-- what is written on a card, read in a state of the session -/
def Src.read {E α : Type} (e : E) : Src E α → Option α
  | .blank => none
  | .num x => some x
  | .text f => some (f e)

def data {E : Type} (tdef : ℝ) (e : E) (c : Card E) : Data where
  vto := c.vto.read e
  gamma := c.gamma.read e
  phi := c.phi.read e
  tox := c.tox.read e
  nsub := c.nsub.read e
  kp := c.kp.read e
  nss := (c.nss.read e).getD 0
  uo := (c.uo.read e).getD 600
  tnom := (c.tnom.read e).getD tdef
  gate := (c.tpg.read e).getD 1

variable {E : Type}

theorem get_read {α : Type} (e : E) (s : Src E α) : s.get e = s.read e := by cases s <;> rfl

theorem getD_read {α : Type} (e : E) (d : α) (s : Src E α) : s.getD e d = (s.read e).getD d := by cases s <;> rfl

theorem oxide_get (e : E) (s : Src E ℝ) : (oxide e s).get e = match s.read e with | some x => if 0 < x then some x else none | none => none := by
  cases s with
  | blank => rfl
  | num x =>
    simp only [oxide, Src.get, Src.read]
    by_cases h : x ≤ 0
    · rw [if_pos h, if_neg (not_lt.2 h)]
    · rw [if_neg h, if_pos (not_le.1 h)]
  | text f =>
    simp only [oxide, Src.get, Src.read]
    by_cases h : f e ≤ 0
    · rw [if_pos h, if_neg (not_lt.2 h)]
    · rw [if_neg h, if_pos (not_le.1 h)]

theorem thick_get (lv : Level) (tdef : ℝ) (e : E) (c : Card E) : (thick lv e c.tox).get e = Ox lv (data tdef e c) := by
  have h := oxide_get e c.tox
  cases lv with
  | one =>
    simp only [thick, h, Ox, data]
    cases c.tox.read e <;> rfl
  | six =>
    simp only [thick, h, Ox, data]
    cases c.tox.read e <;> rfl
  | two =>
    simp only [thick, Ox, data]
    cases hr : c.tox.read e with
    | none =>
      rw [hr] at h
      simp only [h]; rfl
    | some x =>
      rw [hr] at h
      simp only at h
      by_cases hx : 0 < x
      · rw [if_pos hx] at h
        simp only [h, if_pos hx]
      · rw [if_neg hx] at h
        simp only [h, if_neg hx]; rfl

theorem doping_read (tdef : ℝ) (e : E) (c : Card E) : doping e c.nsub = Dope (data tdef e c) := by
  simp only [doping, Dope, data, get_read]
  cases c.nsub.read e with
  | none => rfl
  | some x =>
    simp only
    by_cases h : (1.45e10 : ℝ) ≤ x
    · rw [if_pos h, if_neg (by simp only [ni]; norm_num at h ⊢; linarith)]
    · rw [if_neg h, if_pos (by simp only [ni]; norm_num at h ⊢; linarith)]

theorem surface_eq (t n : ℝ) : phiCalc (t + 273.15) n = Surface t n := by
  have e : (2 * kq) * (t + 273.15) * Real.log (n / ni)
      = 2 * (1.3806226e-23 * (t + 273.15) / 1.6021918e-19) * Real.log (n / 1.45e16) := by
    simp only [kq, kb, qe, ni]; ring
  simp only [phiCalc, Surface, e]
  split_ifs with h
  · exact (max_eq_left h.le).symm
  · exact (max_eq_right (not_lt.1 h)).symm

theorem gate_work (pol : ℝ) (hp : pol = 1 ∨ pol = -1) (g : ℤ) (eg phi : ℝ) :
    (if gate g = 0 then pol * (-0.05 - (eg + pol * phi) / 2) else -((gate g : ℤ) * eg + phi) / 2) = Work pol g eg phi := by
  have h2 : pol * pol = 1 := by rcases hp with rfl | rfl <;> norm_num
  rcases lt_trichotomy g 0 with h | h | h
  · have : gate g = -1 := by simp [gate, h]
    rw [this, Work, if_neg (by decide), if_neg h.ne, if_neg (by omega)]
    push_cast; ring
  · subst h
    rw [show gate 0 = 0 from rfl, Work, if_pos rfl, if_pos rfl]
    linear_combination (-phi / 2) * h2
  · have : gate g = 1 := by simp [gate, h, h.not_gt]
    rw [this, Work, if_neg (by decide), if_neg h.ne', if_pos h]
    push_cast; ring

/-- **C102**: on a card not evaluated before, everything comes out as wanted: given values as given, the gain from mobility and
oxide, the surface potential from the doping, the body effect from both, the threshold from the gate, the surface states and the
rest; for both polarities, all levels, all that may be given or not. -/
theorem process (lv : Level) (pol tdef : ℝ) (hp : pol = 1 ∨ pol = -1) (e : E) (c : Card E) (h0 : c.cox = none) :
    (precalc lv pol tdef e c).2.cox = WantCox lv (data tdef e c) ∧
    (precalc lv pol tdef e c).2.kp = WantKp lv (data tdef e c) ∧
    (precalc lv pol tdef e c).2.phi = WantPhi lv (data tdef e c) ∧
    (precalc lv pol tdef e c).2.gamma = WantGamma lv (data tdef e c) ∧
    (precalc lv pol tdef e c).2.vto = WantVto lv pol (data tdef e c) := by
  have hT := thick_get lv tdef e c
  have hD := doping_read tdef e c
  have hcap : ∀ x, epsOx / x = Cap x := fun x => rfl
  obtain ⟨o, hx⟩ : ∃ o, Ox lv (data tdef e c) = o := ⟨_, rfl⟩
  obtain ⟨m, hn⟩ : ∃ m, Dope (data tdef e c) = m := ⟨_, rfl⟩
  rw [hx] at hT
  rw [hn] at hD
  simp only [precalc, hT, hD, h0, get_read, getD_read]
  cases o with
  | none =>
    have hl : lv ≠ .two := by
      rintro rfl
      simp only [Ox] at hx
      cases h : (data tdef e c).tox <;> simp [h] at hx
    refine ⟨by simp [WantCox, hx], ?_, ?_, ?_, ?_⟩
    · simp only [WantKp, hx]
      simp only [data]
      cases c.kp.read e with
      | some k => rfl
      | none => cases lv with
        | one => rfl
        | two => exact absurd rfl hl
        | six => rfl
    · simp only [WantPhi, hx]
      simp only [data]; cases c.phi.read e <;> rfl
    · simp only [WantGamma, hx]
      simp only [data]; cases c.gamma.read e <;> rfl
    · simp only [WantVto, hx]
      simp only [data]
      cases c.vto.read e with
      | none => rfl
      | some v => simp [mul_comm]
  | some x =>
    have hc : epsOx / x = WantCox lv (data tdef e c) := by simp only [WantCox, hx]; rfl
    have hk : (c.kp.read e).getD ((gain lv).1 * ((c.uo.read e).getD 600 * 1e-4) * (epsOx / x)) = WantKp lv (data tdef e c) := by
      simp only [WantKp, hx, hcap]
      simp only [data]
      cases c.kp.read e with
      | some k => rfl
      | none =>
        cases lv with
        | six => simp only [gain, Option.getD_none]; ring
        | one => simp only [gain, Option.getD_none]; ring
        | two => simp only [gain, Option.getD_none]; ring
    cases m with
    | none =>
      refine ⟨hc, hk, ?_, ?_, ?_⟩
      · simp only [WantPhi, hx, hn]
        simp only [data]; cases c.phi.read e <;> rfl
      · simp only [WantGamma, hx, hn]
        simp only [data]; cases c.gamma.read e <;> rfl
      · simp only [WantVto, hx, hn]
        simp only [data]
        cases c.vto.read e with
        | none => rfl
        | some v => simp [mul_comm]
    | some n =>
      have eP : (c.phi.read e).getD (phiCalc ((c.tnom.read e).getD tdef + 273.15) n) = WantPhi lv (data tdef e c) := by
        simp only [WantPhi, hx, hn]
        simp only [data]
        cases c.phi.read e with
        | some p => rfl
        | none => simp only [Option.getD_none]; exact surface_eq _ n
      have eG : (c.gamma.read e).getD (Real.sqrt (2 * epsSi * qe * n) / (epsOx / x)) = WantGamma lv (data tdef e c) := by
        simp only [WantGamma, hx, hn]
        simp only [data]
        cases c.gamma.read e with
        | some p => rfl
        | none => rfl
      refine ⟨hc, hk, eP, eG, ?_⟩
      simp only [eP, eG]
      simp only [WantVto, hx, hn, hcap]
      cases hv : c.vto.read e with
      | some v => simp [data, hv, mul_comm]
      | none =>
        simp only [Option.map_none, show (data tdef e c).vto = none from hv]
        generalize WantPhi lv (data tdef e c) = P
        generalize WantGamma lv (data tdef e c) = G
        have eg : egap ((c.tnom.read e).getD tdef + 273.15) = Gap (data tdef e c).tnom := by
          simp only [egap, Gap, data]; ring
        simp only [vtoCalc, eg, gate_work pol hp]
        by_cases h : P < 0
        · rw [if_pos h, if_neg (not_le.2 h)]
        · rw [if_neg h, if_pos (not_lt.1 h)]
          simp only [data, qe]
          congr 1; ring

/-! ## Again, and in another state -/

/-- the card after an analysis -/
theorem after_phi (lv : Level) (pol tdef : ℝ) (e : E) (c : Card E) :
    (precalc lv pol tdef e c).1.phi = match c.phi.read e with | none => .num (precalc lv pol tdef e c).2.phi | some _ => c.phi := by
  simp only [precalc, get_read]
  split <;> [skip; split] <;> cases h : c.phi.read e <;> simp

theorem after_gamma (lv : Level) (pol tdef : ℝ) (e : E) (c : Card E) :
    (precalc lv pol tdef e c).1.gamma = match c.gamma.read e with | none => .num (precalc lv pol tdef e c).2.gamma | some _ => c.gamma := by
  simp only [precalc, get_read]
  split <;> [skip; split] <;> cases h : c.gamma.read e <;> simp

theorem after_kp (lv : Level) (pol tdef : ℝ) (e : E) (c : Card E) :
    (precalc lv pol tdef e c).1.kp = match c.kp.read e, Ox lv (data tdef e c) with
      | none, some _ => .num (precalc lv pol tdef e c).2.kp
      | _, _ => c.kp := by
  have hT := thick_get lv tdef e c
  obtain ⟨o, hx⟩ : ∃ o, Ox lv (data tdef e c) = o := ⟨_, rfl⟩
  rw [hx] at hT
  simp only [precalc, hT, hx, get_read]
  cases o with
  | none => cases h : c.kp.read e <;> rfl
  | some x =>
    simp only
    split <;> cases h : c.kp.read e <;> simp

theorem value_phi (lv : Level) (pol tdef : ℝ) (e : E) (c : Card E) {x : ℝ} (h : c.phi.read e = some x) :
    (precalc lv pol tdef e c).2.phi = x := by
  simp only [precalc, get_read, h]
  split <;> [skip; split] <;> rfl

theorem value_gamma (lv : Level) (pol tdef : ℝ) (e : E) (c : Card E) {x : ℝ} (h : c.gamma.read e = some x) :
    (precalc lv pol tdef e c).2.gamma = x := by
  simp only [precalc, get_read, h]
  split <;> [skip; split] <;> rfl

theorem value_kp (lv : Level) (pol tdef : ℝ) (e : E) (c : Card E) {x : ℝ} (h : c.kp.read e = some x) :
    (precalc lv pol tdef e c).2.kp = x := by
  simp only [precalc, get_read, h]
  split <;> [skip; split] <;> rfl

theorem gate_gate (t : ℤ) : gate (gate t) = gate t := by
  rcases lt_trichotomy t 0 with h | h | h
  · simp [gate, h]
  · subst h; rfl
  · simp [gate, h, h.not_gt]

theorem oxide_oxide (e : E) (s : Src E ℝ) : oxide e (oxide e s) = oxide e s := by
  obtain ⟨o, h⟩ : ∃ o, s.get e = o := ⟨_, rfl⟩
  cases o with
  | none => simp only [oxide, h]
  | some x =>
    by_cases hx : x ≤ 0
    · simp only [oxide, h, if_pos hx]; rfl
    · simp only [oxide, h, if_neg hx]

theorem thick_thick (lv : Level) (e : E) (s : Src E ℝ) : thick lv e (thick lv e s) = thick lv e s := by
  cases lv with
  | one => exact oxide_oxide e s
  | six => exact oxide_oxide e s
  | two =>
    obtain ⟨o, h⟩ : ∃ o, (oxide e s).get e = o := ⟨_, rfl⟩
    cases o with
    | none =>
      have : oxide e (Src.num 1e-7 : Src E ℝ) = .num 1e-7 := by
        simp only [oxide, Src.get]; rw [if_neg (by norm_num)]
      simp only [thick, h, this]; rfl
    | some x => simp only [thick, h, oxide_oxide]

/-- **C102, again**: another analysis in the same state of the session changes neither the values nor the card. -/
theorem again (lv : Level) (pol tdef : ℝ) (e : E) (c : Card E) :
    precalc lv pol tdef e (precalc lv pol tdef e c).1 = precalc lv pol tdef e c := by
  obtain ⟨T, hT⟩ : ∃ T, thick lv e c.tox = T := ⟨_, rfl⟩
  have hT2 : thick lv e T = T := by rw [← hT, thick_thick]
  obtain ⟨o, ho⟩ : ∃ o, T.get e = o := ⟨_, rfl⟩
  obtain ⟨m, hm⟩ : ∃ m, doping e c.nsub = m := ⟨_, rfl⟩
  obtain ⟨a, ha⟩ : ∃ a, c.phi.get e = a := ⟨_, rfl⟩
  obtain ⟨b, hb⟩ : ∃ b, c.gamma.get e = b := ⟨_, rfl⟩
  obtain ⟨k, hk⟩ : ∃ k, c.kp.get e = k := ⟨_, rfl⟩
  have g1 : ∀ x : ℝ, (Src.num x : Src E ℝ).get e = some x := fun _ => rfl
  have g2 : ∀ (x y : ℤ), (Src.num x : Src E ℤ).getD e y = x := fun _ _ => rfl
  cases o with
  | none => cases a <;> cases b <;> cases k <;>
      simp only [precalc, hT, hT2, ho, ha, hb, hk, g1, g2, gate_gate, Option.getD_some, Option.getD_none]
  | some x => cases m <;> cases a <;> cases b <;> cases k <;>
      simp only [precalc, hT, hT2, ho, hm, ha, hb, hk, g1, g2, gate_gate, Option.getD_some, Option.getD_none]

/-- **C102, false: what is worked out once stays.**  Surface potential, body effect and, with an oxide, gain are put in the card
as if they were given: whatever states the session passes through, the later analyses use those of the first. -/
theorem sticks (lv : Level) (pol tdef : ℝ) (e : E) (c : Card E) (es : List E) (e' : E) :
    (c.phi = .blank → (precalc lv pol tdef e' (run lv pol tdef es (precalc lv pol tdef e c).1)).2.phi = (precalc lv pol tdef e c).2.phi) ∧
    (c.gamma = .blank →
      (precalc lv pol tdef e' (run lv pol tdef es (precalc lv pol tdef e c).1)).2.gamma = (precalc lv pol tdef e c).2.gamma) ∧
    (c.kp = .blank → Ox lv (data tdef e c) ≠ none →
      (precalc lv pol tdef e' (run lv pol tdef es (precalc lv pol tdef e c).1)).2.kp = (precalc lv pol tdef e c).2.kp) := by
  have R : ∀ (es : List E) (c : Card E),
      (∀ x, c.phi = .num x → (run lv pol tdef es c).phi = .num x) ∧
      (∀ x, c.gamma = .num x → (run lv pol tdef es c).gamma = .num x) ∧
      (∀ x, c.kp = .num x → (run lv pol tdef es c).kp = .num x) := by
    intro es
    induction es with
    | nil => intro c; exact ⟨fun _ h => h, fun _ h => h, fun _ h => h⟩
    | cons e es ih =>
      intro c
      obtain ⟨i1, i2, i3⟩ := ih (precalc lv pol tdef e c).1
      refine ⟨fun x h => i1 x ?_, fun x h => i2 x ?_, fun x h => i3 x ?_⟩
      · rw [after_phi, h]; rfl
      · rw [after_gamma, h]; rfl
      · rw [after_kp, h]; rfl
  obtain ⟨r1, r2, r3⟩ := R es (precalc lv pol tdef e c).1
  refine ⟨fun h => ?_, fun h => ?_, fun h ho => ?_⟩
  · exact value_phi lv pol tdef e' _ (by rw [r1 _ (by rw [after_phi, h]; rfl)]; rfl)
  · exact value_gamma lv pol tdef e' _ (by rw [r2 _ (by rw [after_gamma, h]; rfl)]; rfl)
  · have k : (precalc lv pol tdef e c).1.kp = .num (precalc lv pol tdef e c).2.kp := by
      rw [after_kp, h]
      obtain ⟨o, hx⟩ : ∃ o, Ox lv (data tdef e c) = o := ⟨_, rfl⟩
      rw [hx] at ho ⊢
      cases o with
      | none => exact absurd rfl ho
      | some x => rfl
    exact value_kp lv pol tdef e' _ (by rw [r3 _ k]; rfl)

/-- **C102, given values follow**: what is written on the card has, in every analysis, the value its text has then. -/
theorem follows (lv : Level) (pol tdef : ℝ) (c : Card E) (f : E → ℝ) (es : List E) (e' : E) :
    (c.phi = .text f → (precalc lv pol tdef e' (run lv pol tdef es c)).2.phi = f e') ∧
    (c.gamma = .text f → (precalc lv pol tdef e' (run lv pol tdef es c)).2.gamma = f e') ∧
    (c.kp = .text f → (precalc lv pol tdef e' (run lv pol tdef es c)).2.kp = f e') ∧
    (c.vto = .text f → (precalc lv pol tdef e' (run lv pol tdef es c)).2.vto = some (pol * f e')) := by
  have R : ∀ (es : List E) (c : Card E),
      (c.phi = .text f → (run lv pol tdef es c).phi = .text f) ∧
      (c.gamma = .text f → (run lv pol tdef es c).gamma = .text f) ∧
      (c.kp = .text f → (run lv pol tdef es c).kp = .text f) ∧
      (c.vto = .text f → (run lv pol tdef es c).vto = .text f) := by
    intro es
    induction es with
    | nil => intro c; exact ⟨id, id, id, id⟩
    | cons e es ih =>
      intro c
      obtain ⟨i1, i2, i3, i4⟩ := ih (precalc lv pol tdef e c).1
      refine ⟨fun h => i1 ?_, fun h => i2 ?_, fun h => i3 ?_, fun h => i4 ?_⟩
      · rw [after_phi, h]; rfl
      · rw [after_gamma, h]; rfl
      · rw [after_kp, h]; rfl
      · rw [← h]
        simp only [precalc]
        split <;> [rfl; split] <;> rfl
  obtain ⟨r1, r2, r3, r4⟩ := R es c
  refine ⟨fun h => ?_, fun h => ?_, fun h => ?_, fun h => ?_⟩
  · exact value_phi lv pol tdef e' _ (by rw [r1 h]; rfl)
  · exact value_gamma lv pol tdef e' _ (by rw [r2 h]; rfl)
  · exact value_kp lv pol tdef e' _ (by rw [r3 h]; rfl)
  · have := r4 h
    simp only [precalc, this, Src.get, Option.map_some, Option.getD_some]
    split <;> [skip; split] <;> simp [mul_comm]

theorem cap_pos {x : ℝ} (h : 0 < x) : 0 < Cap x := by
  unfold Cap; positivity

theorem cap_inj {x y : ℝ} (hx : 0 < x) (hy : 0 < y) (h : Cap x = Cap y) : x = y := by
  unfold Cap at h
  rw [div_eq_div_iff hx.ne' hy.ne'] at h
  have : (3.9 * 8.854214871e-12 : ℝ) ≠ 0 := by norm_num
  exact (mul_left_cancel₀ this h).symm

/-- **C102, false: the gain of another oxide.**  A card with the thickness in a parameter and no gain: as soon as the parameter
has changed, the gain is not that of the oxide, in any analysis, though the capacitance is. -/
theorem gain_stale (lv : Level) (pol tdef : ℝ) (hp : pol = 1 ∨ pol = -1) (e e' : E) (c : Card E) (h0 : c.cox = none) (t : E → ℝ) (u : ℝ)
    (hk : c.kp = .blank) (ht : c.tox = .text t) (hu : c.uo = .text fun _ => u) (pu : 0 < u) (h1 : 0 < t e) (h2 : 0 < t e')
    (hne : t e ≠ t e') :
    (precalc lv pol tdef e' (precalc lv pol tdef e c).1).2.cox = WantCox lv (data tdef e' c) ∧
    (precalc lv pol tdef e' (precalc lv pol tdef e c).1).2.kp ≠ WantKp lv (data tdef e' c) := by
  have X : ∀ e, 0 < t e → Ox lv (data tdef e c) = some (t e) := by
    intro e h
    simp only [Ox, data, ht, Src.read]
    cases lv <;> simp [h]
  have T : thick lv e c.tox = .text t := by
    have : oxide e c.tox = .text t := by simp only [oxide, ht, Src.get]; rw [if_neg (not_le.2 h1)]
    cases lv with
    | one => exact this
    | six => exact this
    | two => simp only [thick, this, Src.get]
  have C : (precalc lv pol tdef e c).1.tox = .text t := by
    rw [← T]
    simp only [precalc]
    split <;> [rfl; split] <;> rfl
  have T' : (thick lv e' (Src.text t)).get e' = some (t e') := by
    have : oxide e' (Src.text t) = .text t := by simp only [oxide, Src.get]; rw [if_neg (not_le.2 h2)]
    cases lv with
    | one => simp only [thick, this]; rfl
    | six => simp only [thick, this]; rfl
    | two => simp only [thick, this, Src.get]
  constructor
  · simp only [WantCox, X e' h2]
    generalize (precalc lv pol tdef e c).1 = c' at C
    simp only [precalc, C, T']
    split <;> rfl
  · have S := (sticks lv pol tdef e c [] e').2.2 hk (by rw [X e h1]; simp)
    rw [show run lv pol tdef [] (precalc lv pol tdef e c).1 = (precalc lv pol tdef e c).1 from rfl] at S
    rw [S, (process lv pol tdef hp e c h0).2.1]
    have K : ∀ e, 0 < t e → WantKp lv (data tdef e c) = (if lv = .six then 1 / 2 else 1) * (u * 1e-4) * Cap (t e) := by
      intro e h
      have a1 : (data tdef e c).kp = none := by simp only [data, hk, Src.read]
      have a2 : (data tdef e c).uo = u := by simp only [data, hu, Src.read, Option.getD_some]
      simp only [WantKp, X e h, a1, a2]
      cases lv
      · simp
      · simp
      · simp; ring
    rw [K e h1, K e' h2]
    intro h
    have hz : (if lv = Level.six then (1:ℝ) / 2 else 1) * (u * 1e-4) ≠ 0 := by
      split_ifs <;> positivity
    exact hne (cap_inj h1 h2 (mul_left_cancel₀ hz h))

/-- **C102, false: a threshold of two oxides.**  Level 1, n channel, gate of silicon, no surface states: after the parameter has
changed the threshold is worked out anew with the body effect of the first oxide; it is the wanted one only if the parameter is as
before. -/
theorem threshold_stale (tdef : ℝ) (e e' : E) (c : Card E) (h0 : c.cox = none) (t : E → ℝ) (n : ℝ) (hc : c = { c with
      vto := .blank, gamma := .blank, phi := .blank, tox := .text t, nsub := .text (fun _ => n), nss := .blank, tpg := .blank, tnom := .blank })
    (hn : 1.45e10 ≤ n) (h1 : 0 < t e) (h2 : 0 < t e') (hne : t e ≠ t e') :
    (precalc .one 1 tdef e' (precalc .one 1 tdef e c).1).2.vto ≠ WantVto .one 1 (data tdef e' c) := by
  obtain ⟨-, -, pP, pG, -⟩ := process .one 1 tdef (.inl rfl) e c h0
  obtain ⟨sP, sG, -⟩ := sticks .one 1 tdef e c [] e'
  have c1 : c.vto = .blank := by rw [hc]
  have c2 : c.gamma = .blank := by rw [hc]
  have c3 : c.phi = .blank := by rw [hc]
  have c4 : c.tox = .text t := by rw [hc]
  have c5 : c.nsub = .text (fun _ => n) := by rw [hc]
  have c6 : c.nss = .blank := by rw [hc]
  have c7 : c.tpg = .blank := by rw [hc]
  have c8 : c.tnom = .blank := by rw [hc]
  have sP := sP c3
  have sG := sG c2
  simp only [run] at sP sG
  have X : ∀ e, 0 < t e → Ox .one (data tdef e c) = some (t e) := by
    intro e h
    simp [Ox, data, c4, Src.read, h]
  have D : ∀ e, Dope (data tdef e c) = some (n * 1e6) := by
    intro e
    simp only [Dope, data, c5, Src.read, if_pos hn]
  have WP : ∀ e, 0 < t e → WantPhi .one (data tdef e c) = Surface tdef (n * 1e6) := by
    intro e h
    simp only [WantPhi, X e h, D e]
    simp only [data, c3, c8, Src.read, Option.getD_none]
  have WG : ∀ e, 0 < t e → WantGamma .one (data tdef e c) = Real.sqrt (2 * (11.7 * 8.854214871e-12) * 1.6021918e-19 * (n * 1e6)) / Cap (t e) := by
    intro e h
    simp only [WantGamma, X e h, D e]
    simp only [data, c2, Src.read]
  have pos : 0 < Surface tdef (n * 1e6) := lt_of_lt_of_le (by norm_num) (le_max_left _ _)
  obtain ⟨-, -, -, -, qV⟩ := process .one 1 tdef (.inl rfl) e' c h0
  -- the second analysis
  have K : (precalc .one 1 tdef e c).1.vto = .blank ∧ (precalc .one 1 tdef e c).1.tox = .text t ∧
      (precalc .one 1 tdef e c).1.nsub = .text (fun _ => n) ∧ (precalc .one 1 tdef e c).1.nss = .blank ∧
      (precalc .one 1 tdef e c).1.tpg = .num 1 ∧ (precalc .one 1 tdef e c).1.tnom = .blank := by
    have T : thick .one e c.tox = .text t := by
      simp only [thick, oxide, c4, Src.get]; rw [if_neg (not_le.2 h1)]
    refine ⟨?_, ?_, ?_, ?_, ?_, ?_⟩
    · rw [← c1]; simp only [precalc]; split <;> [rfl; split] <;> rfl
    · rw [← T]; simp only [precalc]; split <;> [rfl; split] <;> rfl
    · rw [← c5]; simp only [precalc]; split <;> [rfl; split] <;> rfl
    · rw [← c6]; simp only [precalc]; split <;> [rfl; split] <;> rfl
    · have : gate (c.tpg.getD e 1) = 1 := by rw [c7]; rfl
      rw [← this]; simp only [precalc]; split <;> [rfl; split] <;> rfl
    · rw [← c8]; simp only [precalc]; split <;> [rfl; split] <;> rfl
  have aP := after_phi .one 1 tdef e c
  have aG := after_gamma .one 1 tdef e c
  rw [c3] at aP
  rw [c2] at aG
  simp only [Src.read] at aP aG
  rw [pP, WP e h1] at aP
  rw [pG, WG e h1] at aG
  obtain ⟨k1, k2, k3, k4, k5, k6⟩ := K
  generalize (precalc .one 1 tdef e c).1 = d at *
  have T' : (thick .one e' (Src.text t)).get e' = some (t e') := by
    simp only [thick, oxide, Src.get]; rw [if_neg (not_le.2 h2)]
  have N' : doping e' (Src.text fun _ : E => n) = some (n * 1e6) := by
    simp only [doping, Src.get]
    rw [if_neg (by simp only [ni]; norm_num at hn ⊢; linarith)]
  have V : (precalc .one 1 tdef e' d).2.vto = vtoCalc 1 1 (egap (tdef + 273.15)) (Surface tdef (n * 1e6))
      (Real.sqrt (2 * (11.7 * 8.854214871e-12) * 1.6021918e-19 * (n * 1e6)) / Cap (t e)) (0 * 1e4) (epsOx / t e') := by
    simp only [precalc, k1, k2, k3, k4, k5, k6, aP, aG, T', N']
    rfl
  have W : WantVto .one 1 (data tdef e' c) = some (-(Gap tdef + Surface tdef (n * 1e6)) / 2 + Surface tdef (n * 1e6)
      + Real.sqrt (2 * (11.7 * 8.854214871e-12) * 1.6021918e-19 * (n * 1e6)) / Cap (t e') * Real.sqrt (Surface tdef (n * 1e6))) := by
    simp only [WantVto, X e' h2, D e', WP e' h2, WG e' h2]
    simp only [data, c1, c6, c7, c8, Src.read, Option.getD_none, if_pos pos.le, Work]
    norm_num
  have E1 : egap (tdef + 273.15) = Gap tdef := by simp only [egap, Gap]; ring
  rw [V, W, vtoCalc, if_neg (not_lt.2 pos.le), if_neg (by decide), E1]
  intro h
  have h := Option.some.inj h
  have hs : 0 < Real.sqrt (Surface tdef (n * 1e6)) := Real.sqrt_pos.2 pos
  have hn0 : 0 < n := lt_of_lt_of_le (by norm_num) hn
  have hq : 0 < Real.sqrt (2 * (11.7 * 8.854214871e-12) * 1.6021918e-19 * (n * 1e6)) := Real.sqrt_pos.2 (by positivity)
  generalize Real.sqrt (2 * (11.7 * 8.854214871e-12) * 1.6021918e-19 * (n * 1e6)) = Q at *
  have h3 : Q / Cap (t e) * Real.sqrt (Surface tdef (n * 1e6)) = Q / Cap (t e') * Real.sqrt (Surface tdef (n * 1e6)) := by
    have z : (1 : ℝ) * qe * (0 * 1e4) / (epsOx / t e') = 0 := by rw [zero_mul, mul_zero, zero_div]
    rw [z] at h
    push_cast at h
    linarith
  have h4 := mul_right_cancel₀ hs.ne' h3
  rw [div_eq_div_iff (cap_pos h1).ne' (cap_pos h2).ne'] at h4
  exact hne (cap_inj h1 h2 (mul_left_cancel₀ hq.ne' h4).symm)

/-- **C102, false: an oxide once not positive is gone.**  Levels 1 and 6: if the thickness is not positive in one analysis its text
is thrown away; later analyses have no oxide, whatever the parameter is then. -/
theorem oxide_lost (lv : Level) (hl : lv ≠ .two) (pol tdef : ℝ) (e : E) (c : Card E) (t : E → ℝ) (ht : c.tox = .text t) (h1 : t e ≤ 0)
    (es : List E) (e' : E) :
    Ox lv (data tdef e' (run lv pol tdef es (precalc lv pol tdef e c).1)) = none ∧
    (0 < t e' → Ox lv (data tdef e' c) = some (t e')) := by
  have A : ∀ (e : E) (c : Card E), (precalc lv pol tdef e c).1.tox = thick lv e c.tox := by
    intro e c
    simp only [precalc]; split <;> [rfl; split] <;> rfl
  have B : ∀ e : E, thick lv e (Src.blank : Src E ℝ) = .blank := by
    intro e; cases lv with
    | one => rfl
    | six => rfl
    | two => exact absurd rfl hl
  have R : ∀ (es : List E) (c : Card E), c.tox = .blank → (run lv pol tdef es c).tox = .blank := by
    intro es
    induction es with
    | nil => intro c h; exact h
    | cons e es ih => intro c h; exact ih _ (by rw [A, h, B])
  have h0 : (precalc lv pol tdef e c).1.tox = .blank := by
    have : oxide e c.tox = .blank := by simp only [oxide, ht, Src.get]; rw [if_pos h1]
    rw [A]
    cases lv with
    | one => exact this
    | six => exact this
    | two => exact absurd rfl hl
  constructor
  · simp only [Ox, data, R es _ h0, Src.read]
  · intro h
    simp only [Ox, data, ht, Src.read]
    cases lv with
    | one => simp [h]
    | six => simp [h]
    | two => exact absurd rfl hl

/-! ## Size -/

/-- the device the other way round, source and drain exchanged -/
def Line.mirror (d : Line) : Line := { d with ad := d.as, as := d.ad, nrd := d.nrs, nrs := d.nrd }
def Geo.mirror (g : Geo) : Geo := { g with rd := g.rs, rs := g.rd, defad := g.defas, defas := g.defad }

/-- **C102, source and drain alike**: exchanging what is said of source and drain exchanges resistances and currents of the
junctions, and leaves the channel as it is. -/
theorem size_mirror (g : Geo) (d : Line) :
    (size g.mirror d.mirror).l = (size g d).l ∧ (size g.mirror d.mirror).w = (size g d).w ∧
    (size g.mirror d.mirror).rd = (size g d).rs ∧ (size g.mirror d.mirror).rs = (size g d).rd ∧
    (size g.mirror d.mirror).idsat = (size g d).issat ∧ (size g.mirror d.mirror).issat = (size g d).idsat := by
  refine ⟨rfl, rfl, ?_, ?_, ?_, ?_⟩
  · simp only [size, Geo.mirror, Line.mirror, Bool.or_comm]
  · simp only [size, Geo.mirror, Line.mirror, Bool.or_comm]
  · simp only [size, Geo.mirror, Line.mirror, or_comm]
  · simp only [size, Geo.mirror, Line.mirror, or_comm]

/-- **C102, what is given wins**: resistances given on the card are used as they are, one alone with 0 for the other; else sheets
times squares.  Currents are those of the areas if the card has a density and both areas, else the one of the card. -/
theorem size_law (g : Geo) (d : Line) :
    (∀ a b, g.rd = some a → g.rs = some b → (size g d).rd = a ∧ (size g d).rs = b) ∧
    (∀ a, g.rd = some a → g.rs = none → (size g d).rd = a ∧ (size g d).rs = 0) ∧
    (∀ b, g.rd = none → g.rs = some b → (size g d).rd = 0 ∧ (size g d).rs = b) ∧
    (∀ r, g.rd = none → g.rs = none → g.rsh = some r → (size g d).rd = r * d.nrd ∧ (size g d).rs = r * d.nrs) ∧
    (∀ j a b, g.js = some j → d.ad = some a → d.as = some b → a ≠ 0 → b ≠ 0 → (size g d).idsat = j * a ∧ (size g d).issat = j * b) ∧
    (g.js = none → (size g d).idsat = g.is ∧ (size g d).issat = g.is) ∧
    (∀ x y, d.l = some x → d.w = some y → (size g d).l = x * g.lmlt + g.xl - 2 * (g.ld + g.del) ∧
      (size g d).w = y * g.wmlt + g.xw - 2 * g.wd) := by
  refine ⟨?_, ?_, ?_, ?_, ?_, ?_, ?_⟩
  · intro a b h1 h2; simp [size, h1, h2]
  · intro a h1 h2; simp [size, h1, h2]
  · intro b h1 h2; simp [size, h1, h2]
  · intro r h1 h2 h3; simp [size, h1, h2, h3]
  · intro j a b h1 h2 h3 h4 h5; simp [size, h1, h2, h3, h4, h5]
  · intro h; simp [size, h]
  · intro x y h1 h2; simp [size, h1, h2]

/-- **C102, false: the message says the sheet.**  With both resistances and the sheet given, the resistances being 0, the message
says the sheet is used; 0 is used. -/
theorem sheet_told_wrong (g : Geo) (d : Line) (r : ℝ) (h1 : g.rd = some 0) (h2 : g.rs = some 0) (h3 : g.rsh = some r) (hr : r ≠ 0)
    (hn : d.nrd ≠ 0) : told g = some true ∧ (size g d).rd = 0 ∧ (size g d).rd ≠ r * d.nrd := by
  refine ⟨by simp [told, h1, h2, h3], by simp [size, h1, h2], ?_⟩
  simp only [size, h1, h2]
  simp [hr, hn]

/-- **C102, false: the default length is not corrected.**  A device without a length is not like one with the default length
written out, except where shrinking, masking and diffusion cancel. -/
theorem default_length (g : Geo) (d : Line) :
    (size g { d with l := none }).l = (size g { d with l := some g.defl }).l ↔
      g.defl * g.lmlt + g.xl - 2 * (g.ld + g.del) = g.defl := by
  simp only [size]
  exact eq_comm

/-- **C102, false: no length is too short.**  Any length up to the diffusion gives a channel of no or negative length. -/
theorem length_negative (g : Geo) (d : Line) (x : ℝ) (hx : d.l = some x) (h1 : g.lmlt = 1) (h2 : g.xl = 0) (h3 : g.del = 0)
    (h : x ≤ 2 * g.ld) : (size g d).l ≤ 0 := by
  simp only [size, hx, h1, h2, h3]; linarith

/-- **C102, false: the mobility with temperature.**  Levels 2 and 3: the gain falls with the temperature to the power 3/2 as it
should, the mobility rises with it; they agree at the nominal temperature only. -/
theorem mobility_temp_wrong (r uo cox w l : ℝ) (hr : 0 < r) (hu : 0 < uo) (hc : 0 < cox) (hw : 0 < w) (hl : 0 < l) :
    betaT r (uo * cox) w l = uoT r uo * cox * w / l ↔ r = 1 := by
  have hs : 0 < Real.sqrt r := Real.sqrt_pos.2 hr
  have hq : Real.sqrt r * Real.sqrt r = r := Real.mul_self_sqrt hr.le
  constructor
  · intro h
    have hp : 0 < r * Real.sqrt r := mul_pos hr hs
    rw [betaT, uoT, div_left_inj' hl.ne', mul_left_inj' hw.ne', div_eq_iff hp.ne'] at h
    have h2 : uo * cox * 1 = uo * cox * (r * r * r) := by
      calc uo * cox * 1 = uo * cox := mul_one _
        _ = uo * (r * Real.sqrt r) * cox * (r * Real.sqrt r) := h
        _ = uo * cox * (r * r * (Real.sqrt r * Real.sqrt r)) := by ring
        _ = uo * cox * (r * r * r) := by rw [hq]
    have h3 := mul_left_cancel₀ (mul_pos hu hc).ne' h2
    have h4 : (r - 1) * (r * r + r + 1) = 0 := by linear_combination -h3
    rcases mul_eq_zero.1 h4 with h5 | h5
    · linarith
    · have : 0 < r * r + r + 1 := by positivity
      exact absurd h5 this.ne'
  · rintro rfl
    simp [betaT, uoT]

/-! ## A card -/

/-- `tox=t nsub=1e15`, the rest left out; the session is the value of `t` -/
def demo : Card ℝ where
  vto := .blank
  gamma := .blank
  phi := .blank
  tox := .text id
  nsub := .text fun _ => 1e15
  nss := .blank
  uo := .text fun _ => 600
  tpg := .blank
  kp := .blank
  tnom := .blank
  cox := none

example : (precalc .one 1 27 1e-7 demo).2.kp = 600 * 1e-4 * (3.9 * 8.854214871e-12 / 1e-7) := by
  rw [(process .one 1 27 (.inl rfl) 1e-7 demo rfl).2.1]
  have : (0:ℝ) < 1e-7 := by norm_num
  have x : Ox .one (data 27 (1e-7 : ℝ) demo) = some 1e-7 := by
    simp only [Ox, data, demo, Src.read, id]; rw [if_pos this]
  simp only [WantKp, x]
  simp only [data, demo, Src.read, Option.getD_some, Cap]

example : precalc .two (-1) 27 1e-7 (precalc .two (-1) 27 1e-7 demo).1 = precalc .two (-1) 27 1e-7 demo := again _ _ _ _ _

example : (precalc .one 1 27 2e-8 (run .one 1 27 [3e-8, 4e-8] (precalc .one 1 27 1e-7 demo).1)).2.gamma = (precalc .one 1 27 1e-7 demo).2.gamma :=
  (sticks .one 1 27 1e-7 demo [3e-8, 4e-8] 2e-8).2.1 rfl

example : (precalc .one 1 27 0.7 (run .one 1 27 [0.8] { demo with phi := .text id })).2.phi = 0.7 :=
  (follows .one 1 27 { demo with phi := .text id } id [0.8] 0.7).1 rfl

example : (precalc .one 1 27 2e-8 (precalc .one 1 27 1e-7 demo).1).2.kp ≠ WantKp .one (data 27 2e-8 demo) :=
  (gain_stale .one 1 27 (.inl rfl) 1e-7 2e-8 demo rfl id 600 rfl rfl rfl (by norm_num) (by norm_num) (by norm_num) (by norm_num)).2

example : (precalc .one 1 27 2e-8 (precalc .one 1 27 1e-7 demo).1).2.vto ≠ WantVto .one 1 (data 27 2e-8 demo) :=
  threshold_stale 27 1e-7 2e-8 demo rfl id 1e15 rfl (by norm_num) (by norm_num) (by norm_num) (by norm_num)

example : Ox .one (data 27 (2e-8 : ℝ) (run .one 1 27 [] (precalc .one 1 27 0 demo).1)) = none :=
  (oxide_lost .one (by decide) 1 27 0 demo id rfl (le_refl _) [] 2e-8).1

def geo : Geo := ⟨1, 1, 0, 0, 1e-7, 0, 0, some 0, some 0, some 20, 1e-14, some 1e-4, 1e-4, 1e-4, 0, 0⟩
def line : Line := ⟨some 1e-7, none, some 1e-10, some 2e-10, 2, 3⟩

example : told geo = some true ∧ (size geo line).rd = 0 ∧ (size geo line).rd ≠ 20 * 2 :=
  sheet_told_wrong geo line 20 rfl rfl rfl (by norm_num) (by norm_num [line])
example : (size geo line).l ≤ 0 := length_negative geo line 1e-7 rfl rfl rfl rfl (by norm_num [geo])
example : (size geo { line with l := none }).l ≠ (size geo { line with l := some geo.defl }).l := by
  rw [Ne, default_length]; norm_num [geo]
example : (size geo line).idsat = 1e-4 * 1e-10 :=
  ((size_law geo line).2.2.2.2.1 1e-4 1e-10 2e-10 rfl rfl rfl (by norm_num) (by norm_num)).1
example : (size geo.mirror line.mirror).idsat = (size geo line).issat := (size_mirror geo line).2.2.2.2.1
example : betaT 1.2 (600 * 3e-4) 1 1 ≠ uoT 1.2 600 * 3e-4 * 1 / 1 := by
  rw [Ne, mobility_temp_wrong 1.2 600 3e-4 1 1 (by norm_num) (by norm_num) (by norm_num) (by norm_num) (by norm_num)]; norm_num

end Gnucap.MosProc
