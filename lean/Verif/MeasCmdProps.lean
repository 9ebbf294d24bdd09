import Verif.MeasCmdModel
import Verif.MeasureProps
import Verif.ParCmdProps

/-!
# The command `measure` and the waveforms it works on (C100)

What a run records for a probe is `recorded`; what the words of a line mean is in `Fn.names`.
-/
set_option linter.unusedSimpArgs false
namespace Gnucap.MeasCmd
open Gnucap.Scan Gnucap.Spice Gnucap.Num
open Gnucap.AnaCmd (Param parse Brackets)
open Gnucap.PrbCmd (Mode)

/-! ## Waveforms -/

/-- what rows say of a probe -/
def recorded (p : Probe) (l : List (ℚ × (Probe → ℚ))) : Wave := l.map fun r => (r.1, r.2 p)

theorem push_map (x : ℚ) (v : Probe → ℚ) (f : Probe → Wave) : ∀ ps : List Probe, push x v ps (ps.map f) = some (ps.map fun p => f p ++ [(x, v p)])
  | [] => rfl
  | p :: ps => by simp [push, push_map x v f ps]

theorem pushAll_map (ps : List Probe) : ∀ (l : List (ℚ × (Probe → ℚ))) (f : Probe → Wave),
    pushAll ps l (ps.map f) = some (ps.map fun p => f p ++ recorded p l)
  | [], f => by simp [pushAll, recorded]
  | (x, v) :: l, f => by simp [pushAll, push_map, pushAll_map ps l, recorded]

/-- a run writes each row once into the wave of each probe, in order -/
theorem run_records (s : St) (m : Mode) (l : List (ℚ × (Probe → ℚ))) :
    step s (.run m (.rows l)) = some { s with mode := m, waves := some ((s.lists m).map fun p => recorded p l) } := by
  have := pushAll_map (s.lists m) l (fun _ => [])
  simp only [List.nil_append] at this
  simp only [step, this, Option.map_some]

/-- recording never goes beyond the waves -/
theorem steps_total : ∀ (h : List Op) (s : St), ∃ s', steps s h = some s'
  | [], s => ⟨s, rfl⟩
  | o :: h, s => by
    have : ∃ t, step s o = some t := by
      cases o with
      | run m r => cases r with
        | early => exact ⟨_, rfl⟩
        | rows l => exact ⟨_, run_records s m l⟩
      | _ => exact ⟨_, rfl⟩
    obtain ⟨t, ht⟩ := this
    obtain ⟨u, hu⟩ := steps_total h t
    exact ⟨u, by simp [steps, ht, hu]⟩

theorem steps_append (o : Op) : ∀ (h : List Op) (s : St), steps s (h ++ [o]) = (steps s h).bind fun t => step t o
  | [], s => by simp [steps]
  | a :: h, s => by
    simp only [List.cons_append, steps]
    rcases step s a with _ | t
    · rfl
    · simp [steps_append o h t]

theorem step_none (s t : St) (o : Op) (hs : s.lists .none = []) (ht : step s o = some t) : t.lists .none = [] := by
  cases o with
  | store m l =>
    simp only [step, Option.some.injEq] at ht
    subst ht
    simp only
    split
    · exact hs
    · next h => rw [Function.update_of_ne (fun e => h e.symm)]; exact hs
  | clear => simp only [step, Option.some.injEq] at ht; subst ht; rfl
  | other => simp only [step, Option.some.injEq] at ht; subst ht; exact hs
  | purge g => simp only [step, Option.some.injEq] at ht; subst ht; simp [hs]
  | run m r =>
    cases r with
    | early => simp only [step, Option.some.injEq] at ht; subst ht; exact hs
    | rows l => rw [run_records] at ht; cases ht; exact hs

theorem steps_none : ∀ (h : List Op) (s t : St), s.lists .none = [] → steps s h = some t → t.lists .none = []
  | [], s, t, hs, ht => by cases ht; exact hs
  | o :: h, s, t, hs, ht => by
    simp only [steps, Option.bind_eq_some_iff] at ht
    obtain ⟨u, hu, ht⟩ := ht
    exact steps_none h u t (step_none s u o hs hu) ht

/-- the state after the history `h` -/
def After (h : List Op) (s : St) : Prop := steps .init h = some s

theorem after_snoc {h : List Op} {o : Op} {t : St} (ht : After (h ++ [o]) t) : ∃ s, After h s ∧ step s o = some t := by
  unfold After at ht
  rw [steps_append, Option.bind_eq_some_iff] at ht
  exact ht

theorem find_idx {α : Type} (q : α → Bool) : ∀ l : List α,
    match l.find? q with
    | some p => ∃ i, l.findIdx? q = some i ∧ l[i]? = some p
    | none => l.findIdx? q = none
  | [] => rfl
  | a :: l => by
    have ih := find_idx q l
    rw [List.find?_cons, List.findIdx?_cons]
    cases hq : q a
    · simp only [Bool.false_eq_true, if_false]
      rcases hf : l.find? q with _ | p
      · rw [hf] at ih; simp only at ih ⊢; rw [ih]; rfl
      · rw [hf] at ih
        obtain ⟨i, h1, h2⟩ := ih
        exact ⟨i + 1, by rw [h1]; rfl, by simpa using h2⟩
    · exact ⟨0, rfl, rfl⟩

/-- **after a run a name finds what the run recorded for the first probe of its list that has this name, whatever was before** -/
theorem found_after_run (ci : Bool) (h : List Op) (m : Mode) (l : List (ℚ × (Probe → ℚ))) (s : St) (hs : After (h ++ [.run m (.rows l)]) s) (name : List Char) :
    findWave ci s name = match (s.lists m).find? fun p => Wmatch.wmatch ci p.label name with
      | some p => .wave (recorded p l)
      | none => .none := by
  obtain ⟨t, -, ht⟩ := after_snoc hs
  rw [run_records] at ht
  cases ht
  unfold findWave
  simp only
  have := find_idx (fun p : Probe => Wmatch.wmatch ci p.label name) (t.lists m)
  rcases hf : (t.lists m).find? (fun p => Wmatch.wmatch ci p.label name) with _ | p
  · rw [hf] at this
    simp only at this ⊢
    rw [this, hf]
  · rw [hf] at this
    obtain ⟨i, h1, h2⟩ := this
    rw [hf]
    simp [h1, h2]

theorem wmatch_exact (ci : Bool) : ∀ (l w : List Char), (∀ c ∈ w, c ≠ '*' ∧ c ≠ '?') →
    (Wmatch.wmatch ci l w = true ↔ l.map (Wmatch.fixCase ci) = w.map (Wmatch.fixCase ci))
  | [], [], _ => by simp [Wmatch.wmatch]
  | [], _ :: _, _ => by simp [Wmatch.wmatch]
  | _ :: _, [], _ => by simp [Wmatch.wmatch]
  | c :: l, p :: w, h => by
    have hp := h p (by simp)
    have ih := wmatch_exact ci l w (fun c hc => h c (by simp [hc]))
    rw [Wmatch.wmatch]
    by_cases he : Wmatch.fixCase ci c = Wmatch.fixCase ci p
    · simp [he, ih]
    · simp [he, hp.1, hp.2]

/-- same name, but for case if that is ignored -/
def SameName (ci : Bool) (a b : List Char) : Prop := a.map (Wmatch.fixCase ci) = b.map (Wmatch.fixCase ci)

/-- **a probe of the list is found by its label** -/
theorem found_label (ci : Bool) (h : List Op) (m : Mode) (l : List (ℚ × (Probe → ℚ))) (s : St) (hs : After (h ++ [.run m (.rows l)]) s) (p : Probe)
    (hp : p ∈ s.lists m) (hone : ∀ q ∈ s.lists m, SameName ci q.label p.label → q = p) (name : List Char) (hn : SameName ci p.label name)
    (hw : ∀ c ∈ name, c ≠ '*' ∧ c ≠ '?') : findWave ci s name = .wave (recorded p l) := by
  rw [found_after_run ci h m l s hs]
  rcases hf : (s.lists m).find? (fun p => Wmatch.wmatch ci p.label name) with _ | q
  · have := List.find?_eq_none.mp hf p hp
    exact absurd ((wmatch_exact ci _ _ hw).mpr hn) this
  · have h1 := List.mem_of_find?_eq_some hf
    have h3 : Wmatch.wmatch ci q.label name = true := by have := List.find?_some hf; simpa using this
    have h2 := (wmatch_exact ci _ _ hw).mp h3
    rw [hf, hone q h1 (h2.trans hn.symm)]

/-- **removing what no probe of the list looks at changes nothing** -/
theorem found_kept (ci : Bool) (s t : St) (gone : ℕ → Bool) (ht : step s (.purge gone) = some t) (hk : ∀ p ∈ s.lists s.mode, gone p.obj = false) (name : List Char) :
    findWave ci t name = findWave ci s name := by
  simp only [step, Option.some.injEq] at ht
  subst ht
  unfold findWave
  simp only
  rw [List.filter_eq_self.mpr (fun p hp => by simp [hk p hp])]

/-! ### Where it goes wrong -/

/-- **after any command for probes, even a listing, no wave is found, whatever was recorded** (c_prbcmd.cc:47) -/
theorem after_probe_wrong (ci : Bool) (h : List Op) (o : Op) (ho : o = .other ∨ o = .clear ∨ ∃ m l, o = .store m l) (s : St) (hs : After (h ++ [o]) s)
    (name : List Char) : findWave ci s name = .none := by
  have hn : s.lists .none = [] := steps_none _ .init _ rfl hs
  obtain ⟨t, -, ht⟩ := after_snoc hs
  have hm : s.mode = .none := by
    rcases ho with rfl | rfl | ⟨m, l, rfl⟩ <;> (simp only [step, Option.some.injEq] at ht; subst ht; rfl)
  unfold findWave
  rw [hm, hn]
  rfl

/-- **after an analysis that did not start, its list is used with the waves of the run before**: the name of a probe finds the wave of the
probe that stood in the same place, or memory beyond the waves -/
theorem early_wrong (ci : Bool) (h : List Op) (m m' : Mode) (l : List (ℚ × (Probe → ℚ))) (s : St) (hs : After (h ++ [.run m (.rows l)] ++ [.run m' .early]) s)
    (i : ℕ) (name : List Char) (hi : (s.lists m').findIdx? (fun p => Wmatch.wmatch ci p.label name) = some i) :
    findWave ci s name = match (s.lists m)[i]? with
      | some p => .wave (recorded p l)
      | none => .ub := by
  obtain ⟨t, ht, hst⟩ := after_snoc hs
  obtain ⟨u, -, hut⟩ := after_snoc ht
  rw [run_records] at hut
  cases hut
  simp only [step, Option.some.injEq] at hst
  subst hst
  unfold findWave
  simp only at hi ⊢
  rw [hi]
  rcases hq : (u.lists m)[i]? with _ | p <;> simp [hq]

/-- no run of the history got as far as recording -/
def NoRows (h : List Op) : Prop := ∀ o ∈ h, ∀ m l, o ≠ .run m (.rows l)

theorem no_rows : ∀ (h : List Op) (s t : St), s.waves = none → NoRows h → steps s h = some t → t.waves = none
  | [], s, t, hs, _, ht => by cases ht; exact hs
  | o :: h, s, t, hs, hn, ht => by
    simp only [steps, Option.bind_eq_some_iff] at ht
    obtain ⟨u, hu, ht⟩ := ht
    refine no_rows h u t ?_ (fun o ho => hn o (by simp [ho])) ht
    cases o with
    | run m r =>
      cases r with
      | early => simp only [step, Option.some.injEq] at hu; subst hu; exact hs
      | rows l => exact absurd rfl (hn _ (by simp) m l)
    | _ => simp only [step, Option.some.injEq] at hu; subst hu; exact hs

/-- **a probe of an analysis that did not start, before any other did, is found in a null pointer** -/
theorem null_wrong (ci : Bool) (h : List Op) (hn : NoRows h) (m : Mode) (s : St) (hs : After (h ++ [.run m .early]) s) (p : Probe) (hp : p ∈ s.lists m)
    (name : List Char) (hm : Wmatch.wmatch ci p.label name = true) : findWave ci s name = .ub := by
  have hw : s.waves = none := no_rows _ .init s rfl (by
    intro o ho m' l' e
    rcases List.mem_append.mp ho with ho | ho
    · exact hn o ho m' l' e
    · rw [List.mem_singleton] at ho; rw [ho] at e; cases e) hs
  obtain ⟨t, -, ht⟩ := after_snoc hs
  simp only [step, Option.some.injEq] at ht
  subst ht
  unfold findWave
  simp only at hw hp ⊢
  have := find_idx (fun p : Probe => Wmatch.wmatch ci p.label name) (t.lists m)
  rcases hf : (t.lists m).find? (fun p => Wmatch.wmatch ci p.label name) with _ | q
  · exact absurd hm (List.find?_eq_none.mp hf p hp)
  · rw [hf] at this
    obtain ⟨i, h1, -⟩ := this
    simp [h1, hw]

/-- **when a part is deleted, the probes behind its own in the list find the waves of those before them** -/
theorem purge_wrong (ci : Bool) (h : List Op) (m : Mode) (l : List (ℚ × (Probe → ℚ))) (s s' : St) (hs : After (h ++ [.run m (.rows l)]) s) (gone : ℕ → Bool)
    (hs' : step s (.purge gone) = some s') (p q : Probe) (r : List Probe) (hl : s.lists m = p :: q :: r) (hp : gone p.obj = true) (hq : gone q.obj = false)
    (name : List Char) (hn : Wmatch.wmatch ci q.label name = true) : findWave ci s' name = .wave (recorded p l) := by
  obtain ⟨t, -, ht⟩ := after_snoc hs
  rw [run_records] at ht
  cases ht
  simp only [step, Option.some.injEq] at hs'
  subst hs'
  unfold findWave
  simp only at hl ⊢
  simp [hl, hp, hq, List.findIdx?_cons, hn]

/-! ## What a line means -/

/-- the words of a function: what must be written, what may be written behind it, what it is for -/
abbrev Names := List (List Char × List Char × Act)

def windowNames : Names := [
  (['b', 'e', 'g', 'i', 'n'], [], .num .after),
  (['a', 'f', 't', 'e', 'r'], [], .num .after),
  (['e', 'n', 'd'], [], .num .before),
  (['b', 'e', 'f', 'o', 'r', 'e'], [], .num .before),
  (['p', 'r', 'o', 'b', 'e'], [], .probe)]

def whichNames : Names := [(['f', 'i', 'r', 's', 't'], [], .set .last false), (['l', 'a', 's', 't'], [], .set .last true)]

/-- the words each function knows -/
def Fn.names : Fn → Names
  | .max => windowNames ++ whichNames ++ [(['a', 'r', 'g'], [], .set .arg true)]
  | .min => windowNames ++ whichNames ++ [(['a', 'r', 'g'], [], .set .arg true)]
  | .cross => windowNames ++ whichNames ++ [(['c', 'r', 'o', 's', 's'], [], .num .cross), (['r', 'i', 's', 'e'], [], .set .fall false),
      (['f', 'a', 'l', 'l'], [], .set .fall true)]
  | .average => windowNames
  | .rms => windowNames
  | .integral => windowNames
  | .at => [(['p', 'r', 'o', 'b', 'e'], [], .probe), (['a', 't'], [], .num .x), (['x'], [], .num .x),
      (['d', 'e', 'r', 'i', 'v'], ['a', 't', 'i', 'v', 'e'], .bool .deriv)]
  | .slew => windowNames ++ whichNames ++ [(['i', 'n', 'i', 't', 'i', 'a', 'l'], [], .num .start), (['s', 't', 'a', 'r', 't', '_', 'v', 'a', 'l'], [], .num .start),
      (['f', 'i', 'n', 'a', 'l'], [], .num .stop), (['t', 'o'], [], .num .stop), (['e', 'x', 'p', 'r'], ['e', 's', 's', 'i', 'o', 'n'], .set .expr true)]

/-- what a word is for -/
def meant (ns : Names) (w : List Char) : Option Act := (ns.find? fun e => (AnaCmd.spelled e.1 e.2.1).contains w).map (·.2.2)

/-- the name of a probe, in quotes or braces, or a word -/
inductive Label where
  | quoted (o c : Char) (t : List Char)
  | plain (t : List Char)

def Label.text : Label → List Char
  | .quoted o c t => o :: (t ++ [c])
  | .plain t => t

def Label.name : Label → List Char
  | .quoted _ _ t => t
  | .plain t => t

def Label.Good : Label → Prop
  | .quoted o c t => Brackets o c ∧ ∀ x ∈ t, x ≠ c ∧ x ≠ o ∧ x ≠ '\\'
  | .plain t => Plain t

/-- what stands between the parentheses -/
inductive Item where
  | probe (w : List Char) (eq : Bool) (n : Label)
  | num (w : List Char) (eq : Bool) (v : ParCmd.Value)
  | flag (w : List Char)
  | off (w : List Char)
  | is (w t : List Char)

def Item.text : Item → List Char
  | .probe w q n => w ++ AnaCmd.sepText q :: n.text
  | .num w q v => w ++ AnaCmd.sepText q :: v.text
  | .flag w => w
  | .off w => ['n', 'o'] ++ w
  | .is w t => w ++ '=' :: t

def Item.Good (ci : Bool) (ns : Names) : Item → Prop
  | .probe w _ n => meant ns w = some .probe ∧ n.Good
  | .num w _ v => (∃ s, meant ns w = some (.num s)) ∧ v.Good ci
  | .flag w => ∃ f, (∃ b, meant ns w = some (.set f b)) ∨ meant ns w = some (.bool f)
  | .off w => ∃ f, meant ns w = some (.bool f)
  | .is w t => (∃ f, meant ns w = some (.bool f)) ∧ (t ∈ Opt.yesWords ∨ t ∈ Opt.noWords)

/-- a value as it is kept until it is used -/
def kept (u : Units) : ParCmd.Value → Param
  | .num n => .num (n.value u)
  | .expr _ _ t => .text t
  | .word t => .text t

def setNum (a : Args) (s : Slot) (p : Param) : Args := { a with num := fun k => if k = s then p else a.num k }
def setFlag (a : Args) (f : Flag) (b : Bool) : Args := { a with flag := fun k => if k = f then b else a.flag k }

/-- what an item does -/
def Item.does (u : Units) (ns : Names) (a : Args) : Item → Args
  | .probe _ _ n => { a with probe := n.name }
  | .num w _ v => match meant ns w with
    | some (.num s) => setNum a s (kept u v)
    | _ => a
  | .flag w => match meant ns w with
    | some (.set f b) => setFlag a f b
    | some (.bool f) => setFlag a f true
    | _ => a
  | .off w => match meant ns w with
    | some (.bool f) => setFlag a f false
    | _ => a
  | .is w t => match meant ns w with
    | some (.bool f) => setFlag a f (decide (t ∈ Opt.yesWords))
    | _ => a

/-- items with what stands behind each, and a text at the end -/
def lineText : List (Item × Gap) → List Char → List Char
  | [], z => z
  | (i, g) :: l, z => i.text ++ (g.text ++ lineText l z)

def Line (ci : Bool) (ns : Names) : List (Item × Gap) → Prop
  | [] => True
  | (i, g) :: l => i.Good ci ns ∧ g.ok ∧ (l ≠ [] → g.text ≠ []) ∧ Line ci ns l

def allDo (u : Units) (ns : Names) (a : Args) (l : List (Item × Gap)) : Args := l.foldl (fun a p => p.1.does u ns a) a

/-! ## Words -/

def ending : Act → List Seg
  | .set _ _ => [.delim]
  | .bool _ => [.delim]
  | _ => [.delim, .opt ['=']]

def miss (ci : Bool) (w : List Char) (x : List Char × Act) : Bool :=
  Opt.fails ci (Opt.segsOf none (x.2.pattern x.1)) w &&
    (match x.2 with | .bool _ => Opt.fails ci (Opt.segsOf none (['n', 'o'] ++ x.1)) w | _ => true)

def firstFor (table : List (List Char × Act)) (ci : Bool) (w : List Char) : Option (List Char × Act) := table.find? fun x => !miss ci w x

def picks (table : List (List Char × Act)) (ns : Names) (ci : Bool) (w : List Char) : Bool :=
  match firstFor table ci w, meant ns w with
  | some x, some a => decide (x.2 = a) && decide (Opt.reach ci (Opt.segsOf none (x.2.pattern x.1)) w = some (ending a))
  | _, _ => false

def picksNo (table : List (List Char × Act)) (ns : Names) (ci : Bool) (w : List Char) : Bool :=
  match meant ns w with
  | some (.bool f) =>
    match firstFor table ci (['n', 'o'] ++ w) with
    | some x => decide (x.2 = .bool f) && Opt.fails ci (Opt.segsOf none (x.2.pattern x.1)) (['n', 'o'] ++ w) &&
        decide (Opt.reach ci (Opt.segsOf none (['n', 'o'] ++ x.1)) (['n', 'o'] ++ w) = some [])
    | none => false
  | _ => true

def words (ns : Names) : List (List Char) := ns.flatMap fun e => AnaCmd.spelled e.1 e.2.1

def plainWord (w : List Char) : Bool := Opt.isWord w && w.all fun c => c != '*' && c != '?' && c != '(' && c != '"' && c != '\''

/-- the table does with the words what they are for, and nothing with a parenthesis -/
structure Fits (table : List (List Char × Act)) (ns : Names) : Prop where
  sound : (table.all fun x => Opt.sound (x.2.pattern x.1) && Opt.sound (['n', 'o'] ++ x.1)) = true
  word : ((words ns).all fun w => plainWord w && plainWord (['n', 'o'] ++ w) &&
    picks table ns false w && picks table ns true w && picksNo table ns false w && picksNo table ns true w) = true
  close : (table.all fun x => miss false [] x && miss true [] x) = true

theorem fits : ∀ f : Fn, Fits f.table f.names := by
  intro f
  cases f <;> exact ⟨by decide +kernel, by decide +kernel, by decide +kernel⟩

theorem meant_words (ns : Names) (w : List Char) (a : Act) (h : meant ns w = some a) : w ∈ words ns := by
  unfold meant at h
  rcases hf : ns.find? (fun e => (AnaCmd.spelled e.1 e.2.1).contains w) with _ | e
  · rw [hf] at h; cases h
  · obtain ⟨h1, -⟩ := List.find?_eq_some_iff_append.mp hf
    exact List.mem_flatMap.mpr ⟨e, List.mem_of_find?_eq_some hf, List.contains_iff_mem.mp h1⟩

/-- a word without wildcards, parentheses and quotes -/
structure Bare (w : List Char) : Prop where
  word : Opt.Word w
  chars : ∀ c ∈ w, c ≠ '*' ∧ c ≠ '?' ∧ c ≠ '(' ∧ c ≠ '"' ∧ c ≠ '\''

theorem bare_of {w : List Char} (h : plainWord w = true) : Bare w := by
  simp only [plainWord, Bool.and_eq_true, List.all_eq_true, bne_iff_ne, ne_eq] at h
  exact ⟨Opt.word_of h.1, fun c hc => by have := h.2 c hc; tauto⟩

theorem Bare.plain {w : List Char} (h : Bare w) : Plain w :=
  ⟨h.word.1, fun c hc => (h.word.2 c hc).1, fun c hc => (h.word.2 c hc).2,
    fun e => (h.chars _ (List.mem_of_mem_head? e)).2.2.2.1 rfl, fun e => (h.chars _ (List.mem_of_mem_head? e)).2.2.2.2 rfl⟩

section table
variable {table : List (List Char × Act)} {ns : Names} (ht : Fits table ns)

include ht in
theorem Fits.of {w : List Char} {a : Act} (h : meant ns w = some a) : Bare w ∧ Bare (['n', 'o'] ++ w) ∧
    ∀ ci, picks table ns ci w = true ∧ picksNo table ns ci w = true := by
  have := List.all_eq_true.mp ht.word w (meant_words ns w a h)
  simp only [Bool.and_eq_true] at this
  obtain ⟨⟨⟨⟨⟨h1, h2⟩, h4⟩, h5⟩, h6⟩, h7⟩ := this
  refine ⟨bare_of h1, bare_of h2, fun ci => ?_⟩
  cases ci
  · exact ⟨h4, h6⟩
  · exact ⟨h5, h7⟩

include ht in
theorem Fits.snd {x : List Char × Act} (h : x ∈ table) : Opt.sound (x.2.pattern x.1) = true ∧ Opt.sound (['n', 'o'] ++ x.1) = true := by
  have := List.all_eq_true.mp ht.sound x h
  simpa only [Bool.and_eq_true] using this

include ht in
theorem tryAll_misses (e : Env) (a : Args) (w rest : List Char) (hsk : skipbl (w ++ rest) = w ++ rest) (hn : ∀ c ∈ w, isTermChar c = false) (hr : isTerm rest = true)
    (post : List (List Char × Act)) : ∀ (pre : List (List Char × Act)), (∀ x ∈ pre, x ∈ table ∧ miss e.ci w x = true) →
      tryAll e a (w ++ rest) (pre ++ post) = tryAll e a (w ++ rest) post
  | [], _ => rfl
  | x :: pre, h => by
    obtain ⟨h1, h2⟩ := h x (by simp)
    obtain ⟨s1, s2⟩ := ht.snd h1
    have hu : ∀ p, Opt.sound p = true → Opt.fails e.ci (Opt.segsOf none p) w = true → umatch e.ci p (w ++ rest) = .fail := by
      intro p hp hf
      rw [Opt.umatch_sound _ _ _ hp, hsk, Opt.fails_spec e.ci rest hr _ w (Opt.sound_clean hp) hn hf]
    obtain ⟨key, y⟩ := x
    simp only [miss, Bool.and_eq_true] at h2
    have ih := tryAll_misses e a w rest hsk hn hr post pre (fun x hx => h x (by simp [hx]))
    have u1 := hu _ s1 h2.1
    cases y with
    | bool f =>
      have u2 := hu _ s2 h2.2
      simp only at u1 u2
      rw [List.cons_append]
      simp only [tryAll, u1, u2]
      exact ih
    | _ =>
      simp only at u1
      simp only [List.cons_append, tryAll, u1]
      exact ih

include ht in
/-- nothing is done with a parenthesis -/
theorem tryAll_close (e : Env) (a : Args) (z : List Char) : tryAll e a (')' :: z) table = some (a, ')' :: z) := by
  have := tryAll_misses ht e a [] (')' :: z) (skipbl_cons _ (by decide)) (by simp) rfl [] table (fun x hx => by
    refine ⟨hx, ?_⟩
    have := List.all_eq_true.mp ht.close x hx
    simp only [Bool.and_eq_true] at this
    cases e.ci
    · exact this.1
    · exact this.2)
  rw [List.append_nil, List.nil_append] at this
  rw [this]
  rfl

include ht in
theorem tryAll_first (e : Env) (a : Args) (w rest : List Char) (hw : Opt.Word w) (hr : isTerm rest = true) (x : List Char × Act)
    (hf : firstFor table e.ci w = some x) : x ∈ table ∧ ∃ post, tryAll e a (w ++ rest) table = tryAll e a (w ++ rest) (x :: post) := by
  obtain ⟨_, pre, post, hp, hpre⟩ := List.find?_eq_some_iff_append.mp hf
  refine ⟨by rw [hp]; simp, post, ?_⟩
  have := tryAll_misses ht e a w rest (hw.skipbl _) (fun c hc => (hw.2 c hc).2) hr (x :: post) pre (by
    intro y hy
    exact ⟨by rw [hp]; simp [hy], by simpa using hpre y hy⟩)
  rw [← this, ← hp]

/-- what a word leaves -/
def behind (a : Act) (rest : List Char) : List Char :=
  match a with
  | .set _ _ => skipcom (skipbl rest)
  | .bool _ => skipcom (skipbl rest)
  | _ => skipcom (optDrop false ['='] (skipbl rest))

include ht in
theorem tryAll_word (e : Env) (a : Args) (w rest : List Char) (x : Act) (hm : meant ns w = some x) (hr : isTerm rest = true) :
    tryAll e a (w ++ rest) table = x.run e a (behind x rest) := by
  obtain ⟨hb, -, hc⟩ := ht.of hm
  have hw := hb.word
  have hp := (hc e.ci).1
  unfold picks at hp
  rcases hf : firstFor table e.ci w with _ | y
  · rw [hf] at hp; simp at hp
  rw [hf, hm] at hp
  simp only [Bool.and_eq_true, decide_eq_true_eq] at hp
  obtain ⟨h1, h2⟩ := hp
  obtain ⟨hx, post, he⟩ := tryAll_first ht e a w rest hw hr y hf
  obtain ⟨s1, -⟩ := ht.snd hx
  obtain ⟨key, y⟩ := y
  cases h1
  have hu : umatch e.ci (y.pattern key) (w ++ rest) = .ok (behind y rest) := by
    rw [Opt.umatch_sound _ _ _ s1, hw.skipbl, Opt.reach_spec e.ci rest hr (Opt.segsOf none (y.pattern key)) w _ (Opt.sound_clean s1) h2]
    cases y <;> simp [ending, segMatch, hr, behind, Opt.optDrop_eq e.ci]
  rw [he]
  cases y <;> simp only [tryAll, hu]

include ht in
theorem tryAll_no (e : Env) (a : Args) (w rest : List Char) (f : Flag) (hm : meant ns w = some (.bool f)) (hr : isTerm rest = true) :
    tryAll e a (['n', 'o'] ++ w ++ rest) table = some ({ a with flag := Function.update a.flag f false }, skipcom rest) := by
  obtain ⟨-, hb, hc⟩ := ht.of hm
  have hw := hb.word
  have hp := (hc e.ci).2
  unfold picksNo at hp
  rw [hm] at hp
  simp only at hp
  rcases hf : firstFor table e.ci (['n', 'o'] ++ w) with _ | x
  · rw [hf] at hp; simp at hp
  rw [hf] at hp
  simp only [Bool.and_eq_true, decide_eq_true_eq] at hp
  obtain ⟨⟨h1, h2⟩, h3⟩ := hp
  obtain ⟨hx, post, he⟩ := tryAll_first ht e a (['n', 'o'] ++ w) rest hw hr x hf
  obtain ⟨s1, s2⟩ := ht.snd hx
  obtain ⟨key, y⟩ := x
  cases h1
  have hn : ∀ c ∈ ['n', 'o'] ++ w, isTermChar c = false := fun c hc => (hw.2 c hc).2
  have hu : umatch e.ci (Act.pattern key (.bool f)) (['n', 'o'] ++ w ++ rest) = .fail := by
    rw [Opt.umatch_sound _ _ _ s1, hw.skipbl, Opt.fails_spec e.ci rest hr _ _ (Opt.sound_clean s1) hn h2]
  have hu2 : umatch e.ci (['n', 'o'] ++ key) (['n', 'o'] ++ w ++ rest) = .ok (skipcom rest) := by
    rw [Opt.umatch_sound _ _ _ s2, hw.skipbl, Opt.reach_spec e.ci rest hr (Opt.segsOf none (['n', 'o'] ++ key)) _ _ (Opt.sound_clean s2) h3]
    rfl
  rw [he, tryAll, hu]
  simp only
  rw [hu2]

end table

/-! ## Items -/

/-- `T` stands behind `R`, which is `T` with blanks and perhaps a comma in front -/
structure Behind (R T : List Char) : Prop where
  ends : ∀ c, R.head? = some c → (isSpace c = true ∨ c = ',') ∨ c = ')'
  com : skipcom R = T
  next : Next T
  noEq : T.head? ≠ some '='
  noPar : match1 ['('] T = false

theorem Behind.term {R T : List Char} (h : Behind R T) : isTerm R = true := ParCmd.rest_term h.ends

theorem Behind.com2 {R T : List Char} (h : Behind R T) : skipcom (skipbl R) = T := by
  rw [← h.com]; unfold skipcom; rw [Spice.skipbl_idem]

theorem parse_value (e : Env) (old : Param) (v : ParCmd.Value) (hv : v.Good e.ci) {R T : List Char} (h : Behind R T) :
    parse e.units e.ci old (v.text ++ R) = some (kept e.units v, T) := by
  have hp : match1 ['('] (skipcom R) = false := by rw [h.com]; exact h.noPar
  cases v with
  | num n =>
    have := AnaCmd.parse_numeral e.units e.ci old n hv R fun c hc => ParCmd.space_stops (h.ends c hc)
    rw [h.com] at this
    exact this
  | expr a b t =>
    have := AnaCmd.parse_expression e.units e.ci old hv.1 hv.2.1 R hp
    rw [h.com] at this
    simpa [ParCmd.Value.text, kept] using this
  | word t =>
    have := ParCmd.parse_text e.units e.ci old t R hv.1 hv.2.1 hv.2.2.1 h.ends hp
    rw [h.com] at this
    exact this

theorem word_label (n : Label) (hn : n.Good) {R T : List Char} (h : Behind R T) : word (n.text ++ R) = (n.name, T) := by
  cases n with
  | plain t =>
    have := word_plain t R hn h.term
    rw [h.com] at this
    exact this
  | quoted o c t =>
    obtain ⟨hb, hc⟩ := hn
    have hx : isGraph o = true ∧ [('"', '"'), ('\'', '\''), ('{', '}')].lookup o = some c := by
      rcases hb with ⟨rfl, rfl⟩ | ⟨rfl, rfl⟩ | ⟨rfl, rfl⟩ <;> decide
    simp only [Label.text, Label.name, List.cons_append, List.append_assoc, List.nil_append]
    unfold word ctos
    simp only [skipbl_cons _ hx.1, hx.2, quoted_plain o c t R hc, h.com]

theorem plain_head {t : List Char} (h : Plain t) (s : List Char) : ∃ c r, t ++ s = c :: r ∧ isGraph c = true ∧ c ≠ ',' ∧ c ≠ '=' ∧ c ≠ '(' := by
  obtain ⟨c, w, e⟩ := List.exists_cons_of_ne_nil h.ne
  have ht := h.noTerm c (by simp [e])
  refine ⟨c, w ++ s, by simp [e], h.graph c (by simp [e]), ?_, ?_, ?_⟩ <;> (rintro rfl; exact absurd ht (by decide))

theorem brackets_head {o c : Char} (h : Brackets o c) : isGraph o = true ∧ o ≠ ',' ∧ o ≠ '=' ∧ o ≠ '(' := by
  rcases h with ⟨rfl, -⟩ | ⟨rfl, -⟩ | ⟨rfl, -⟩ <;> decide

theorem value_head (ci : Bool) (v : ParCmd.Value) (hv : v.Good ci) (s : List Char) : ∃ c r, v.text ++ s = c :: r ∧ isGraph c = true ∧ c ≠ ',' ∧ c ≠ '=' := by
  cases v with
  | num n =>
    obtain ⟨c, r, e, -, h1, h2, h3⟩ := AnaCmd.numeral_head n hv s
    exact ⟨c, r, e, h1, h2, h3⟩
  | expr a b t =>
    obtain ⟨h1, h2, h3, -⟩ := brackets_head hv.1
    exact ⟨a, t ++ [b] ++ s, by simp [ParCmd.Value.text], h1, h2, h3⟩
  | word t =>
    obtain ⟨c, r, e, h1, h2, h3, -⟩ := plain_head hv.1 s
    exact ⟨c, r, e, h1, h2, h3⟩

theorem label_head (n : Label) (hn : n.Good) (s : List Char) : ∃ c r, n.text ++ s = c :: r ∧ isGraph c = true ∧ c ≠ ',' ∧ c ≠ '=' := by
  cases n with
  | plain t =>
    obtain ⟨c, r, e, h1, h2, h3, -⟩ := plain_head hn s
    exact ⟨c, r, e, h1, h2, h3⟩
  | quoted o c t =>
    obtain ⟨h1, h2, h3, -⟩ := brackets_head hn.1
    exact ⟨o, t ++ [c] ++ s, by simp [Label.text], h1, h2, h3⟩

theorem behind_sep (q : Bool) (c : Char) (r : List Char) (hg : isGraph c = true) (h1 : c ≠ ',') (h2 : c ≠ '=') :
    skipcom (optDrop false ['='] (skipbl (AnaCmd.sepText q :: c :: r))) = c :: r :=
  AnaCmd.behind_num (a := .start) (by simp) q c r hg h1 h2

theorem update_flag (a : Args) (f : Flag) (b : Bool) : { a with flag := Function.update a.flag f b } = setFlag a f b := by
  unfold setFlag
  congr 1
  funext k
  simp [Function.update_apply]

theorem update_num (a : Args) (s : Slot) (p : Param) : { a with num := Function.update a.num s p } = setNum a s p := by
  unfold setNum
  congr 1
  funext k
  simp [Function.update_apply]

section table
variable {table : List (List Char × Act)} {ns : Names} (ht : Fits table ns)

include ht in
/-- one round does what the item means -/
theorem tryAll_item (e : Env) (a : Args) (i : Item) (hi : i.Good e.ci ns) {R T : List Char} (h : Behind R T) :
    tryAll e a (i.text ++ R) table = some (i.does e.units ns a, T) := by
  cases i with
  | probe w q n =>
    obtain ⟨hm, hn⟩ := hi
    obtain ⟨c, r, ec, h1, h2, h3⟩ := label_head n hn R
    have hx : (Item.probe w q n).text ++ R = w ++ AnaCmd.sepText q :: (n.text ++ R) := by simp [Item.text]
    rw [hx, tryAll_word ht e a w _ _ hm (AnaCmd.term_sep q _)]
    have hb : behind .probe (AnaCmd.sepText q :: (n.text ++ R)) = n.text ++ R := by
      simp only [behind]; rw [ec]; exact behind_sep q c r h1 h2 h3
    rw [hb]
    simp only [Act.run, word_label n hn h, Item.does]
  | num w q v =>
    obtain ⟨⟨s, hm⟩, hv⟩ := hi
    obtain ⟨c, r, ec, h1, h2, h3⟩ := value_head e.ci v hv R
    have hx : (Item.num w q v).text ++ R = w ++ AnaCmd.sepText q :: (v.text ++ R) := by simp [Item.text]
    rw [hx, tryAll_word ht e a w _ _ hm (AnaCmd.term_sep q _)]
    have hb : behind (.num s) (AnaCmd.sepText q :: (v.text ++ R)) = v.text ++ R := by
      simp only [behind]; rw [ec]; exact behind_sep q c r h1 h2 h3
    rw [hb]
    simp only [Act.run, parse_value e _ v hv h, Option.map_some, Item.does, hm, update_num]
  | flag w =>
    obtain ⟨f, ⟨b, hm⟩ | hm⟩ := hi
    · simp only [Item.text, Item.does, hm]
      rw [tryAll_word ht e a w R _ hm h.term]
      simp only [behind, h.com2, Act.run, update_flag]
    · simp only [Item.text, Item.does, hm]
      rw [tryAll_word ht e a w R _ hm h.term]
      have hsk : Spice.skip1b ['='] T = (false, T) := by
        rcases h.next with e0 | ⟨c, r, e0, h1, h2⟩
        · rw [e0]; rfl
        · have h3 := h.noEq
          rw [e0] at h3 ⊢
          exact Spice.skip1b_miss _ _ _ h1 (by
            simp only [List.head?_cons, ne_eq, Option.some.injEq] at h3
            simpa using h3)
      simp only [behind, h.com2, Act.run, hsk, Bool.false_eq_true, if_false, update_flag]
  | off w =>
    obtain ⟨f, hm⟩ := hi
    simp only [Item.text, Item.does, hm]
    rw [tryAll_no ht e a w R f hm h.term, h.com, update_flag]
  | is w x =>
    obtain ⟨⟨f, hm⟩, hx⟩ := hi
    obtain ⟨hxw, z, hz, hch⟩ := AnaCmd.bool_choice x hx
    have hxt : (Item.is w x).text ++ R = w ++ '=' :: (x ++ R) := by simp [Item.text]
    rw [hxt, tryAll_word ht e a w _ _ hm rfl]
    have hbh : behind (.bool f) ('=' :: (x ++ R)) = '=' :: (x ++ R) := by
      have h1 : skipbl ('=' :: (x ++ R)) = '=' :: (x ++ R) := skipbl_cons _ (by decide)
      simp only [behind]
      rw [h1]
      unfold skipcom
      rw [h1]
      rfl
    rw [hbh]
    have h3 : Spice.skip1b ['='] ('=' :: (x ++ R)) = (true, x ++ R) := by
      unfold Spice.skip1b
      rw [skipbl_cons _ (by decide)]
      simp [match1, hxw.skipbl]
    have h4 : Opt.ctob e.ci (x ++ R) = (decide (x ∈ Opt.yesWords), T) := by
      have := Opt.choose_name e.ci x R hxw h.term z Opt.boolWords Opt.bool_sound (hch e.ci)
      unfold Opt.ctob
      rw [hxw.skipbl, this]
      simp only [hz]
      rw [h.com2, h.next.skipcom]
    simp only [Act.run, h3, if_true, h4, Item.does, hm, update_flag]

include ht in
theorem item_head (ci : Bool) (i : Item) (hi : i.Good ci ns) : ∃ w r, i.text = w ++ r ∧ Bare w ∧ (r = [] ∨ ∃ c t, r = c :: t ∧ isTermChar c = true) := by
  cases i with
  | probe w q n => exact ⟨w, _, rfl, (ht.of hi.1).1, .inr ⟨_, _, rfl, by cases q <;> decide⟩⟩
  | num w q v =>
    obtain ⟨⟨s, hm⟩, -⟩ := hi
    exact ⟨w, _, rfl, (ht.of hm).1, .inr ⟨_, _, rfl, by cases q <;> decide⟩⟩
  | flag w =>
    obtain ⟨f, ⟨b, hm⟩ | hm⟩ := hi <;> exact ⟨w, [], by simp [Item.text], (ht.of hm).1, .inl rfl⟩
  | off w =>
    obtain ⟨f, hm⟩ := hi
    exact ⟨['n', 'o'] ++ w, [], by simp [Item.text], (ht.of hm).2.1, .inl rfl⟩
  | is w x =>
    obtain ⟨⟨f, hm⟩, -⟩ := hi
    exact ⟨w, _, rfl, (ht.of hm).1, .inr ⟨_, _, rfl, by decide⟩⟩

include ht in
theorem line_next (ci : Bool) (z : List Char) (l : List (Item × Gap)) (h : Line ci ns l) :
    ∃ c r, lineText l (')' :: z) = c :: r ∧ isGraph c = true ∧ c ≠ ',' ∧ c ≠ '=' ∧ c ≠ '(' := by
  cases l with
  | nil => exact ⟨')', z, rfl, by decide, by decide, by decide, by decide⟩
  | cons p l =>
    obtain ⟨i, g⟩ := p
    obtain ⟨w, r, e, hb, -⟩ := item_head ht ci i h.1
    obtain ⟨c, s, e2, h1⟩ := plain_head hb.plain (r ++ (g.text ++ lineText l (')' :: z)))
    exact ⟨c, s, by rw [lineText, e, List.append_assoc]; exact e2, h1⟩

include ht in
theorem line_behind (ci : Bool) (z : List Char) (g : Gap) (hg : g.ok) (l : List (Item × Gap)) (hl : l ≠ [] → g.text ≠ []) (h : Line ci ns l) :
    Behind (g.text ++ lineText l (')' :: z)) (lineText l (')' :: z)) := by
  obtain ⟨c, r, e, h1, h2, h3, h4⟩ := line_next ht ci z l h
  have hn : Next (lineText l (')' :: z)) := .inr ⟨c, r, e, h1, h2⟩
  refine ⟨?_, skipcom_gap g hg _ hn, hn, by rw [e]; simpa using h3, by rw [e]; simp [match1, h4]⟩
  intro d hd
  by_cases hge : g.text = []
  · have : l = [] := by by_contra h; exact hl h hge
    rw [hge, this] at hd
    simp only [lineText, List.nil_append, List.head?_cons, Option.some.injEq] at hd
    exact .inr hd.symm
  · refine .inl (ParCmd.gap_head hg (s := lineText l (')' :: z)) (fun _ => hge) d hd)

include ht in
/-- the loop reads the line to its parenthesis and does what it says -/
theorem loop_line (e : Env) (z : List Char) : ∀ (l : List (Item × Gap)), Line e.ci ns l → ∀ (n : ℕ) (a : Args) (here : ℕ),
    (lineText l (')' :: z)).length < n → (lineText l (')' :: z)).length ≤ here →
    loop e table n a here (lineText l (')' :: z)) = .done (allDo e.units ns a l) (')' :: z)
  | [], _, n, a, here, hn, hh => by
    have hs : skipbl (')' :: z) = ')' :: z := skipbl_cons _ (by decide)
    have hc := tryAll_close ht e a z
    simp only [lineText, List.length_cons] at hn hh ⊢
    obtain ⟨n, rfl⟩ : ∃ m, n = m + 2 := ⟨n - 2, by omega⟩
    have last : ∀ k, loop e table (k + 1) a (z.length + 1) (')' :: z) = .done a (')' :: z) := by
      intro k
      rw [loop, hc]
      simp only [hs, List.cons_ne_nil, if_false, List.length_cons, lt_irrefl]
    rw [loop, hc]
    simp only [hs, List.cons_ne_nil, if_false, List.length_cons, last, ite_self, allDo, List.foldl_nil]
  | (i, g) :: l, h, n, a, here, hn, hh => by
    obtain ⟨h1, h2, h3, h4⟩ := h
    have hb := line_behind ht e.ci z g h2 l h3 h4
    obtain ⟨w, r, ew, hw, -⟩ := item_head ht e.ci i h1
    obtain ⟨c, t, et, -⟩ := line_next ht e.ci z l h4
    have hne : lineText l (')' :: z) ≠ [] := by rw [et]; simp
    have hpos : 0 < i.text.length := by
      rw [ew, List.length_append]
      have := List.length_pos_iff.mpr hw.word.1
      omega
    simp only [lineText, List.length_append] at hn hh
    obtain ⟨n, rfl⟩ : ∃ m, n = m + 1 := ⟨n - 1, by omega⟩
    rw [lineText, loop, tryAll_item ht e a i h1 hb]
    simp only [hb.next.skipbl, if_neg hne]
    rw [if_pos (by omega)]
    exact loop_line e z l h4 n _ _ (by omega) le_rfl

end table

/-! ## The command -/

/-- every label has a parenthesis: `PROBE::label` is the quantity with what it is of behind it in parentheses (u_probe.cc:92-99) -/
def Labelled (s : St) : Prop := ∀ m, ∀ p ∈ s.lists m, '(' ∈ p.label

theorem lower_paren (c : Char) (h : c.toLower = '(') : c = '(' := by
  by_contra hc
  have : c.toLower.toNat = 40 := by rw [h]; rfl
  unfold Char.toLower at h
  split at h
  · rename_i hu
    simp only [ge_iff_le, Bool.and_eq_true, decide_eq_true_eq] at hu
    have h1 : (c.val + ('a'.val - 'A'.val)) = '('.val := congrArg Char.val h
    have h2 := congrArg UInt32.toNat h1
    have h3 : ('A'.val).toNat ≤ c.val.toNat := UInt32.le_iff_toNat_le.mp hu.1
    have h4 : c.val.toNat ≤ ('Z'.val).toNat := UInt32.le_iff_toNat_le.mp hu.2
    have h5 : (('a'.val - 'A'.val : UInt32)).toNat = 32 := by decide
    have h6 : ('('.val).toNat = 40 := by decide
    have h7 : ('A'.val).toNat = 65 := by decide
    have h8 : ('Z'.val).toNat = 90 := by decide
    rw [UInt32.toNat_add, h5, h6] at h2
    omega
  · exact hc h

theorem bare_no_wave (ci : Bool) (s : St) (hs : Labelled s) (w : List Char) (hw : Bare w) : findWave ci s w = .none := by
  unfold findWave
  have : (s.lists s.mode).findIdx? (fun p => Wmatch.wmatch ci p.label w) = none := by
    rw [List.findIdx?_eq_none_iff]
    intro p hp
    rw [Bool.eq_false_iff]
    intro hm
    have h1 := (wmatch_exact ci _ _ (fun c hc => ⟨(hw.chars c hc).1, (hw.chars c hc).2.1⟩)).mp hm
    have h2 : Wmatch.fixCase ci '(' ∈ w.map (Wmatch.fixCase ci) := by
      rw [← h1]; exact List.mem_map_of_mem (hs _ p hp)
    obtain ⟨c, hc, e⟩ := List.mem_map.mp h2
    have : c = '(' := by
      cases ci
      · simpa [Wmatch.fixCase] using e
      · have e2 : c.toLower = '(' := by simpa [Wmatch.fixCase] using e
        exact lower_paren c e2
    exact (hw.chars c hc).2.2.1 this
  rw [this]

/-- what is between the parentheses: a label in front or not, and items -/
structure Inner where
  label : Option (Label × Gap)
  items : List (Item × Gap)

def Inner.text (i : Inner) (z : List Char) : List Char :=
  match i.label with
  | some (n, g) => n.text ++ (g.text ++ lineText i.items (')' :: z))
  | none => lineText i.items (')' :: z)

def Inner.Good (ci : Bool) (ns : Names) (i : Inner) : Prop :=
  Line ci ns i.items ∧ match i.label with
    | some (n, g) => n.Good ∧ g.ok ∧ (i.items ≠ [] → g.text ≠ [])
    | none => ∃ p ∈ i.items, ∃ w q n, p.1 = .probe w q n

/-- the arguments it gives -/
def Inner.args (e : Env) (ns : Names) (i : Inner) : Args := allDo e.units ns (Args.init e.big) i.items

/-- the probe it names: that in front, or the last one given by an item -/
def Inner.names (e : Env) (ns : Names) (i : Inner) : List Char :=
  match i.label with
  | some (n, _) => n.name
  | none => (i.args e ns).probe

theorem does_probe (u : Units) (ns : Names) (i : Item) (a b : Args) (h1 : a.num = b.num) (h2 : a.flag = b.flag) :
    (i.does u ns a).num = (i.does u ns b).num ∧ (i.does u ns a).flag = (i.does u ns b).flag ∧
    ((a.probe = b.probe ∨ ∃ w q n, i = .probe w q n) → (i.does u ns a).probe = (i.does u ns b).probe) := by
  obtain ⟨p, n, f⟩ := a
  obtain ⟨p', n', f'⟩ := b
  simp only at h1 h2
  subst h1 h2
  cases i with
  | probe w q m => simp [Item.does]
  | num w q v => simp only [Item.does]; split <;> simp [setNum]
  | flag w => simp only [Item.does]; split <;> simp [setFlag]
  | off w => simp only [Item.does]; split <;> simp [setFlag]
  | is w t => simp only [Item.does]; split <;> simp [setFlag]

theorem allDo_probe (u : Units) (ns : Names) : ∀ (l : List (Item × Gap)) (a b : Args), a.num = b.num → a.flag = b.flag →
    (allDo u ns a l).num = (allDo u ns b l).num ∧ (allDo u ns a l).flag = (allDo u ns b l).flag ∧
    ((a.probe = b.probe ∨ ∃ p ∈ l, ∃ w q n, p.1 = .probe w q n) → (allDo u ns a l).probe = (allDo u ns b l).probe)
  | [], a, b, h1, h2 => by simpa [allDo] using ⟨h1, h2⟩
  | p :: l, a, b, h1, h2 => by
    obtain ⟨k1, k2, k3⟩ := does_probe u ns p.1 a b h1 h2
    obtain ⟨j1, j2, j3⟩ := allDo_probe u ns l _ _ k1 k2
    refine ⟨j1, j2, fun h => j3 ?_⟩
    rcases h with h | ⟨x, hx, w, q, n, e⟩
    · exact .inl (k3 (.inl h))
    · rcases List.mem_cons.mp hx with rfl | hx
      · exact .inl (k3 (.inr ⟨w, q, n, e⟩))
      · exact .inr ⟨x, hx, w, q, n, e⟩

theorem value_probe (e : Env) (f : Fn) (a b : Args) (h1 : a.num = b.num) (h2 : a.flag = b.flag) (w : Wave) : f.value e a w = f.value e b w := by
  obtain ⟨p, n, g⟩ := a
  obtain ⟨p', n', g'⟩ := b
  simp only at h1 h2
  subst h1 h2
  cases f <;> rfl

/-- a function gives the value of what the line says on the wave the line names -/
theorem eval_line (e : Env) (s : St) (hs : Labelled s) (f : Fn) (i : Inner) (hi : i.Good e.ci f.names) (v : Wave) (hv : findWave e.ci s (i.names e f.names) = .wave v)
    (name z : List Char) : f.eval e s name (i.text z) = .value name (f.value e (i.args e f.names) v) (')' :: z) := by
  obtain ⟨hl, hlab⟩ := hi
  obtain ⟨lab, items⟩ := i
  rcases lab with _ | ⟨n, g⟩
  · simp only at hlab hl
    simp only [Inner.names] at hv
    simp only [Inner.text]
    have hne : items ≠ [] := by
      rintro rfl
      obtain ⟨p, hp, -⟩ := hlab
      simp at hp
    have hw : ∃ w, (word (lineText items (')' :: z))).1 = w ∧ Bare w := by
      obtain ⟨⟨i, g⟩, l, rfl⟩ := List.exists_cons_of_ne_nil hne
      obtain ⟨w, r, ew, hb, hr⟩ := item_head (fits f) e.ci i hl.1
      refine ⟨w, ?_, hb⟩
      have hbh := line_behind (fits f) e.ci z g hl.2.1 l hl.2.2.1 hl.2.2.2
      rw [lineText, ew, List.append_assoc, word_plain w _ hb.plain]
      rcases hr with rfl | ⟨c, t, rfl, hc⟩
      · exact hbh.term
      · simpa [isTerm] using hc
    obtain ⟨w, ew, hb⟩ := hw
    unfold Fn.eval
    simp only [ew, bare_no_wave e.ci s hs w hb]
    rw [loop_line (fits f) e z items hl _ _ _ (by omega) le_rfl]
    simp only
    obtain ⟨k1, k2, k3⟩ := allDo_probe e.units f.names items { Args.init e.big with probe := w } (Args.init e.big) rfl rfl
    rw [k3 (.inr hlab)]
    simp only [Inner.args] at hv ⊢
    rw [hv]
    simp only
    rw [value_probe e f _ _ k1 k2 v]
  · simp only at hlab
    obtain ⟨hn, hg, hgl⟩ := hlab
    simp only [Inner.names] at hv
    have hbh := line_behind (fits f) e.ci z g hg items hgl hl
    unfold Fn.eval
    simp only [Inner.text, word_label n hn hbh, hv]
    rw [loop_line (fits f) e z items hl _ _ _ (by omega) le_rfl]
    simp only
    obtain ⟨k1, k2, -⟩ := allDo_probe e.units f.names items { Args.init e.big with probe := n.name } (Args.init e.big) rfl rfl
    rw [value_probe e f _ _ k1 k2 v]
    rfl

/-- the names of the functions -/
def Fn.called : Fn → List (List Char)
  | .max => [['m', 'a', 'x']]
  | .min => [['m', 'i', 'n']]
  | .cross => [['c', 'r', 'o', 's', 's']]
  | .average => [['m', 'e', 'a', 'n'], ['a', 'v', 'e', 'r', 'a', 'g', 'e']]
  | .rms => [['r', 'm', 's']]
  | .integral => [['a', 'r', 'e', 'a'], ['i', 'n', 't', 'e', 'g', 'r', 'a', 'l'], ['i', 'n', 't', 'e', 'g', 'r', 'a', 't', 'e']]
  | .at => [['a', 't']]
  | .slew => [['s', 'l', 'o', 'p', 'e'], ['s', 'l', 'e', 'w', 'r', 'a', 't', 'e'], ['d', 'd', 't']]

/-- `w` is a name of the function, in capitals too when case does not matter -/
def Called (ci : Bool) (f : Fn) (w : List Char) : Prop := w ∈ f.called ∨ (ci = true ∧ w.map Char.toLower ∈ f.called)

theorem lookup_called (f : Fn) (w : List Char) (h : w ∈ f.called) : fnTable.lookup w = some f := by
  cases f <;> (simp only [Fn.called, List.mem_cons, List.not_mem_nil, or_false] at h) <;>
    (try rcases h with rfl | rfl | rfl) <;> decide +kernel

theorem lookup_mem (w : List Char) (f : Fn) (h : fnTable.lookup w = some f) : w ∈ fnTable.map (·.1) := by
  by_contra hn
  rw [List.lookup_eq_none_iff.mpr] at h
  · cases h
  · intro p hp
    simp only [beq_eq_false_iff_ne, ne_eq, bne_iff_ne]
    intro e
    exact hn (List.mem_map.mpr ⟨p, hp, e.symm⟩)

theorem dispatch_called (ci : Bool) (f : Fn) (w : List Char) (h : Called ci f w) : dispatch ci w = some f := by
  unfold dispatch
  rcases h with h | ⟨rfl, h⟩
  · rw [lookup_called f w h]
  · rcases hl : fnTable.lookup w with _ | g
    · simp [lookup_called f _ h]
    · have hm := lookup_mem w g hl
      have hid : w.map Char.toLower = w := by
        have : ∀ x ∈ fnTable.map (·.1), x.map Char.toLower = x := by decide +kernel
        exact this w hm
      rw [hid] at h
      rw [lookup_called f w h] at hl
      simp [hl]

/-- a command: where the value goes, the function, blanks, what is in the parentheses -/
structure Call where
  name : List Char
  b1 : List Char
  b2 : List Char
  fn : List Char
  b3 : List Char
  b4 : List Char
  inner : Inner

def Call.text (c : Call) (z : List Char) : List Char :=
  c.name ++ (c.b1 ++ '=' :: (c.b2 ++ (c.fn ++ (c.b3 ++ '(' :: (c.b4 ++ c.inner.text z)))))

structure Call.Good (ci : Bool) (f : Fn) (c : Call) : Prop where
  name : Plain c.name
  fn : Plain c.fn
  called : Called ci f c.fn
  blank : ∀ x ∈ c.b1 ++ c.b2 ++ c.b3 ++ c.b4, isSpace x = true
  inner : c.inner.Good ci f.names

theorem blanks_skip {b : List Char} (hb : ∀ x ∈ b, isSpace x = true) (c : Char) (r : List Char) (hc : isGraph c = true) : skipbl (b ++ c :: r) = c :: r :=
  Num.skipbl_blanks b (c :: r) (fun x hx => Spice.space_not_graph (hb x hx)) (by intro d hd; simp only [List.head?_cons, Option.some.injEq] at hd; rw [← hd]; exact hc)

theorem blanks_term {b : List Char} (hb : ∀ x ∈ b, isSpace x = true) (c : Char) (r : List Char) (hc : isTermChar c = true) : isTerm (b ++ c :: r) = true := by
  cases b with
  | nil => simpa [isTerm] using hc
  | cons d b =>
    have := hb d (by simp)
    simp [isTerm, isTermChar, this]

theorem blanks_com {b : List Char} (hb : ∀ x ∈ b, isSpace x = true) (c : Char) (r : List Char) (hc : isGraph c = true) (h2 : c ≠ ',') : skipcom (b ++ c :: r) = c :: r := by
  have h := blanks_skip hb c r hc
  have hn : Next (c :: r) := .inr ⟨c, r, rfl, hc, h2⟩
  have := hn.skipcom
  unfold skipcom at this ⊢
  rw [hn.skipbl] at this
  rw [h]
  exact this

theorem inner_head (ci : Bool) (f : Fn) (i : Inner) (hi : i.Good ci f.names) (z : List Char) : ∃ c r, i.text z = c :: r ∧ isGraph c = true := by
  obtain ⟨hl, hlab⟩ := hi
  obtain ⟨lab, items⟩ := i
  rcases lab with _ | ⟨n, g⟩
  · obtain ⟨c, r, e, h, -⟩ := line_next (fits f) ci z items hl
    exact ⟨c, r, e, h⟩
  · obtain ⟨c, r, e, h, -⟩ := label_head n hlab.1 (g.text ++ lineText items (')' :: z))
    exact ⟨c, r, e, h⟩

theorem command_fn (e : Env) (s : St) (f : Fn) (name b1 b2 fn b3 b4 : List Char) (hn : Plain name) (hf : Plain fn) (hc : Called e.ci f fn)
    (hb : ∀ x ∈ b1 ++ b2 ++ b3 ++ b4, isSpace x = true) (c : Char) (r : List Char) (hg : isGraph c = true) :
    command e s (name ++ (b1 ++ '=' :: (b2 ++ (fn ++ (b3 ++ '(' :: (b4 ++ c :: r)))))) = f.eval e s name (c :: r) := by
  simp only [List.mem_append] at hb
  have h1 : ∀ x ∈ b1, isSpace x = true := fun x hx => hb x (by tauto)
  have h2 : ∀ x ∈ b2, isSpace x = true := fun x hx => hb x (by tauto)
  have h3 : ∀ x ∈ b3, isSpace x = true := fun x hx => hb x (by tauto)
  have h4 : ∀ x ∈ b4, isSpace x = true := fun x hx => hb x (by tauto)
  have w1 := word_plain name (b1 ++ '=' :: (b2 ++ (fn ++ (b3 ++ '(' :: (b4 ++ c :: r))))) hn (blanks_term h1 _ _ (by decide))
  rw [blanks_com h1 _ _ (by decide) (by decide)] at w1
  obtain ⟨d, t, ed, hd, -⟩ := plain_head hf (b3 ++ '(' :: (b4 ++ c :: r))
  have w2 : (Spice.skip1b ['='] ('=' :: (b2 ++ (fn ++ (b3 ++ '(' :: (b4 ++ c :: r)))))).2 = fn ++ (b3 ++ '(' :: (b4 ++ c :: r)) := by
    unfold Spice.skip1b
    rw [skipbl_cons _ (by decide)]
    simp [match1, ed, blanks_skip h2 d t hd]
  have w3 := word_plain fn (b3 ++ '(' :: (b4 ++ c :: r)) hf (blanks_term h3 _ _ (by decide))
  rw [blanks_com h3 _ _ (by decide) (by decide)] at w3
  have w4 : (Spice.skip1b ['('] ('(' :: (b4 ++ c :: r))).2 = c :: r := by
    unfold Spice.skip1b
    rw [skipbl_cons _ (by decide)]
    simp [match1, blanks_skip h4 c r hg]
  unfold command
  simp only [w1, w2, w3, dispatch_called e.ci f fn hc, w4]

/-- **the command gives the value of the function called, for the arguments written, on what the last run recorded for the probe named** -/
theorem measure_line (e : Env) (h : List Op) (m : Mode) (rows : List (ℚ × (Probe → ℚ))) (s : St) (hs : After (h ++ [.run m (.rows rows)]) s) (hl : Labelled s)
    (f : Fn) (c : Call) (hc : c.Good e.ci f) (p : Probe) (hp : p ∈ s.lists m) (hone : ∀ q ∈ s.lists m, SameName e.ci q.label p.label → q = p)
    (hn : SameName e.ci p.label (c.inner.names e f.names)) (hw : ∀ x ∈ c.inner.names e f.names, x ≠ '*' ∧ x ≠ '?') (z : List Char) :
    command e s (c.text z) = .value c.name (f.value e (c.inner.args e f.names) (recorded p rows)) (')' :: z) := by
  obtain ⟨d, r, ed, hd⟩ := inner_head e.ci f c.inner hc.inner z
  unfold Call.text
  rw [ed, command_fn e s f _ _ _ _ _ _ hc.name hc.fn hc.called hc.blank d r hd, ← ed]
  exact eval_line e s hl f c.inner hc.inner _ (found_label e.ci h m rows s hs p hp hone _ hn hw) _ z

/-! ## What the values are -/

/-- the number a value stands for -/
def amount (e : Env) : ParCmd.Value → ℚ
  | .num n => n.value e.units
  | .expr _ _ t => e.val t
  | .word t => e.val t

/-- the number the items give for `s`: the last one given, or `d` -/
def asked (e : Env) (ns : Names) (s : Slot) : ℚ → List (Item × Gap) → ℚ
  | d, [] => d
  | d, (.num w _ v, _) :: l => asked e ns s (if meant ns w = some (.num s) then amount e v else d) l
  | d, _ :: l => asked e ns s d l

theorem does_num (e : Env) (ns : Names) (s : Slot) (dflt : ℚ) (i : Item) (a : Args) (d : ℚ) (h : (a.num s).val e.val dflt = some d) :
    ((i.does e.units ns a).num s).val e.val dflt = some (match i with
      | .num w _ v => if meant ns w = some (.num s) then amount e v else d
      | _ => d) := by
  cases i with
  | num w q v =>
    simp only [Item.does]
    rcases hm : meant ns w with _ | x
    · simpa using h
    · cases x with
      | num t =>
        by_cases ht : s = t
        · subst ht; cases v <;> simp [setNum, kept, amount, AnaCmd.Param.val]
        · have : ¬ t = s := fun e => ht e.symm
          simpa [setNum, ht, this] using h
      | _ => simpa using h
  | probe w q n => simpa [Item.does] using h
  | flag w => simp only [Item.does]; split <;> simpa [setFlag] using h
  | off w => simp only [Item.does]; split <;> simpa [setFlag] using h
  | is w t => simp only [Item.does]; split <;> simpa [setFlag] using h

theorem allDo_num (e : Env) (ns : Names) (s : Slot) (dflt : ℚ) : ∀ (l : List (Item × Gap)) (a : Args) (d : ℚ), (a.num s).val e.val dflt = some d →
    ((allDo e.units ns a l).num s).val e.val dflt = some (asked e ns s d l)
  | [], a, d, h => by simpa [allDo, asked] using h
  | (i, g) :: l, a, d, h => by
    have := allDo_num e ns s dflt l _ _ (does_num e ns s dflt i a d h)
    cases i <;> exact this

theorem val_asked (e : Env) (ns : Names) (i : Inner) (s : Slot) (d : ℚ) (h : ((Args.init e.big).num s).val e.val d = some d) (k : ℚ → Val) :
    (i.args e ns).val e s d k = k (asked e ns s d i.items) := by
  unfold Args.val Inner.args
  rw [allDo_num e ns s d i.items _ d h]

/-- the part of the wave the items ask for: from the last `after` or `begin` to the last `before` or `end` -/
def part (e : Env) (ns : Names) (i : Inner) (w : Wave) : Wave :=
  Measure.window w (asked e ns .after (-e.big) i.items) (asked e ns .before e.big i.items)

/-- the probe of `measure_line` -/
structure Session (e : Env) (s : St) (rows : List (ℚ × (Probe → ℚ))) (p : Probe) (name : List Char) : Prop where
  run : ∃ h m, After (h ++ [.run m (.rows rows)]) s ∧ p ∈ s.lists m ∧ ∀ q ∈ s.lists m, SameName e.ci q.label p.label → q = p
  labelled : Labelled s
  named : SameName e.ci p.label name
  plain : ∀ x ∈ name, x ≠ '*' ∧ x ≠ '?'

theorem Session.line {e : Env} {s : St} {rows : List (ℚ × (Probe → ℚ))} {p : Probe} {f : Fn} {c : Call} (hs : Session e s rows p (c.inner.names e f.names))
    (hc : c.Good e.ci f) (z : List Char) : command e s (c.text z) = .value c.name (f.value e (c.inner.args e f.names) (recorded p rows)) (')' :: z) := by
  obtain ⟨h, m, h1, h2, h3⟩ := hs.run
  exact measure_line e h m rows s h1 hs.labelled f c hc p h2 h3 hs.named hs.plain z

theorem recorded_mem {p : Probe} {rows : List (ℚ × (Probe → ℚ))} {x : ℚ × ℚ} (h : x ∈ recorded p rows) : ∃ r ∈ rows, x = (r.1, r.2 p) := by
  simp only [recorded, List.mem_map] at h
  obtain ⟨r, hr, rfl⟩ := h
  exact ⟨r, hr, rfl⟩

/-- **max**: the largest value recorded in the part asked for, or with `arg` its time, the first or with `last` the last of them -/
theorem measure_max {e : Env} {s : St} {rows : List (ℚ × (Probe → ℚ))} {p : Probe} {c : Call} (hs : Session e s rows p (c.inner.names e Fn.max.names))
    (hc : c.Good e.ci .max) (hb : ∀ r ∈ rows, -e.big < r.2 p) (hne : part e Fn.max.names c.inner (recorded p rows) ≠ []) (z : List Char) :
    ∃ t v, Measure.Greatest ((c.inner.args e Fn.max.names).flag .last) (part e Fn.max.names c.inner (recorded p rows)) t v ∧
      command e s (c.text z) = .value c.name (.num (if (c.inner.args e Fn.max.names).flag .arg then t else v)) (')' :: z) := by
  have := (Measure.max_correct e.big ((c.inner.args e Fn.max.names).flag .last) (recorded p rows) _ _ (fun x hx => by
    obtain ⟨r, hr, rfl⟩ := recorded_mem hx; exact hb r hr)).2 hne
  refine ⟨_, _, this, ?_⟩
  rw [hs.line hc z]
  simp only [Fn.value]
  rw [val_asked e _ _ .before e.big rfl, val_asked e _ _ .after (-e.big) rfl]

/-- **min** -/
theorem measure_min {e : Env} {s : St} {rows : List (ℚ × (Probe → ℚ))} {p : Probe} {c : Call} (hs : Session e s rows p (c.inner.names e Fn.min.names))
    (hc : c.Good e.ci .min) (hb : ∀ r ∈ rows, r.2 p < e.big) (hne : part e Fn.min.names c.inner (recorded p rows) ≠ []) (z : List Char) :
    ∃ t v, Measure.Least ((c.inner.args e Fn.min.names).flag .last) (part e Fn.min.names c.inner (recorded p rows)) t v ∧
      command e s (c.text z) = .value c.name (.num (if (c.inner.args e Fn.min.names).flag .arg then t else v)) (')' :: z) := by
  have := (Measure.min_correct e.big ((c.inner.args e Fn.min.names).flag .last) (recorded p rows) _ _ (fun x hx => by
    obtain ⟨r, hr, rfl⟩ := recorded_mem hx; exact hb r hr)).2 hne
  refine ⟨_, _, this, ?_⟩
  rw [hs.line hc z]
  simp only [Fn.value]
  rw [val_asked e _ _ .before e.big rfl, val_asked e _ _ .after (-e.big) rfl]

/-- **cross**: the time of the first or with `last` the last crossing of the value given, falling with `fall`, or `±BIGBIG` -/
theorem measure_cross {e : Env} {s : St} {rows : List (ℚ × (Probe → ℚ))} {p : Probe} {c : Call} (hs : Session e s rows p (c.inner.names e Fn.cross.names))
    (hc : c.Good e.ci .cross) (z : List Char) :
    let ns := Fn.cross.names
    let a := c.inner.args e ns
    let slope : ℚ := if a.flag .fall then -1 else 1
    let l := part e ns c.inner (recorded p rows)
    ∃ t, command e s (c.text z) = .value c.name (.num t) (')' :: z) ∧
      if a.flag .last then (Measure.NoCross slope (asked e ns .cross 0 c.inner.items) l ∧ t = -e.big) ∨ Measure.LastCross slope (asked e ns .cross 0 c.inner.items) l t
      else (Measure.NoCross slope (asked e ns .cross 0 c.inner.items) l ∧ t = e.big) ∨ Measure.FirstCross slope (asked e ns .cross 0 c.inner.items) l t := by
  intro ns a slope l
  have hsl : slope = 1 ∨ slope = -1 := by simp only [slope]; split <;> simp
  have := Measure.cross_correct e.big slope (asked e ns .cross 0 c.inner.items) hsl (recorded p rows) (asked e ns .after (-e.big) c.inner.items)
    (asked e ns .before e.big c.inner.items)
  refine ⟨Measure.cross e.big slope (asked e ns .cross 0 c.inner.items) (a.flag .last) (recorded p rows) (asked e ns .after (-e.big) c.inner.items)
    (asked e ns .before e.big c.inner.items), ?_, ?_⟩
  · rw [hs.line hc z]
    simp only [Fn.value]
    rw [val_asked e _ _ .before e.big rfl, val_asked e _ _ .after (-e.big) rfl, val_asked e _ _ .cross 0 rfl]
  · cases hlast : a.flag .last
    · rw [if_neg (by simp)]; exact this.1
    · rw [if_pos rfl]; exact this.2

/-- **slope**: when the wave goes from the one value to the other, the difference of the values over that of two times at which the wave has them;
`BIGBIG` otherwise -/
theorem measure_slope {e : Env} {s : St} {rows : List (ℚ × (Probe → ℚ))} {p : Probe} {c : Call} (hs : Session e s rows p (c.inner.names e Fn.slew.names))
    (hc : c.Good e.ci .slew) (ho : Measure.InOrder (recorded p rows)) (z : List Char) :
    let ns := Fn.slew.names
    let v1 := asked e ns .start 0 c.inner.items
    let v2 := asked e ns .stop 0 c.inner.items
    v1 ≠ v2 →
    command e s (c.text z) = .value c.name (.num e.big) (')' :: z) ∨
    ∃ t1 t2, Measure.SlewFound v1 v2 (part e ns c.inner (recorded p rows)) t1 t2 ∧
      command e s (c.text z) = .value c.name (if (c.inner.args e ns).flag .expr then .quot v2 v1 t2 t1 else .num ((v2 - v1) / (t2 - t1))) (')' :: z) := by
  intro ns v1 v2 hv
  rw [hs.line hc z]
  simp only [Fn.value]
  rw [val_asked e _ _ .before e.big rfl, val_asked e _ _ .after (-e.big) rfl, val_asked e _ _ .start 0 rfl, val_asked e _ _ .stop 0 rfl]
  by_cases hlt : (Measure.slew e.big v1 v2 ((c.inner.args e ns).flag .last) (recorded p rows) (asked e ns .after (-e.big) c.inner.items)
      (asked e ns .before e.big c.inner.items)).2 < e.big
  · right
    exact ⟨_, _, Measure.slew_correct e.big v1 v2 hv _ _ ho _ _ hlt.ne, by rw [if_pos hlt]⟩
  · left
    rw [if_neg hlt]

/-! ## Without quotes -/

/-- **a probe written without quotes is never found**: the word ends at the parenthesis -/
theorem unquoted_wrong (e : Env) (s : St) (hl : Labelled s) (f : Fn) (w : List Char) (hw : w ∈ [['v'], ['i'], ['p']]) (name b1 b2 fn b3 b4 : List Char) (hn : Plain name)
    (hf : Plain fn) (hc : Called e.ci f fn) (hb : ∀ x ∈ b1 ++ b2 ++ b3 ++ b4, isSpace x = true) (z : List Char) :
    command e s (name ++ (b1 ++ '=' :: (b2 ++ (fn ++ (b3 ++ '(' :: (b4 ++ (w ++ '(' :: z))))))) = .noProbe w := by
  have hbare : Bare w := by
    apply bare_of
    revert hw
    clear * -
    revert w
    decide +kernel
  obtain ⟨c, r, ec, hg, -⟩ := plain_head hbare.plain ('(' :: z)
  rw [ec, command_fn e s f name b1 b2 fn b3 b4 hn hf hc hb c r hg, ← ec]
  have hmiss : ∀ x ∈ f.table, x ∈ f.table ∧ miss e.ci w x = true := by
    intro x hx
    refine ⟨hx, ?_⟩
    have : ∀ w ∈ [['v'], ['i'], ['p']], ∀ x ∈ f.table, miss false w x = true ∧ miss true w x = true := by
      clear * -
      cases f <;> decide +kernel
    obtain ⟨h1, h2⟩ := this w hw x hx
    cases e.ci
    · exact h1
    · exact h2
  have hsk := hbare.word.skipbl ('(' :: z)
  have ht : ∀ a, tryAll e a (w ++ '(' :: z) f.table = some (a, w ++ '(' :: z) := by
    intro a
    have := tryAll_misses (fits f) e a w ('(' :: z) hsk (fun c hc => (hbare.word.2 c hc).2) rfl [] f.table hmiss
    rw [List.append_nil] at this
    rw [this]; rfl
  have h1 : (word (w ++ '(' :: z)).1 = w := by rw [word_plain w _ hbare.plain rfl]
  have hno := bare_no_wave e.ci s hl w hbare
  unfold Fn.eval
  simp only [h1, hno]
  simp only [loop, ht, hsk, lt_irrefl, if_false]
  rw [if_neg (by rw [ec]; simp)]
  simp only [hno]

/-! ## Examples -/

namespace Demo

def v1 : Probe := ⟨['v', '(', '1', ')'], 0⟩
def v2 : Probe := ⟨['v', '(', '2', ')'], 1⟩

/-- two probes, three rows; `v(1)` is 0, 2, 1 -/
def rows : List (ℚ × (Probe → ℚ)) := [(0, fun _ => 0), (1, fun p => if p.obj = 0 then 2 else 5), (2, fun p => if p.obj = 0 then 1 else 5)]
def history : List Op := [.store .tran [v1, v2]]
def env : Env := ⟨.si, true, 1000, fun _ => 0⟩

/-- after `store tran v(1) v(2)` and a run -/
def s : St := ⟨Function.update (fun _ => []) .tran [v1, v2], .tran, some [recorded v1 rows, recorded v2 rows]⟩

theorem after : After (history ++ [.run .tran (.rows rows)]) s := by
  unfold After history
  simp only [List.cons_append, List.nil_append, steps, step, Option.bind_some]
  have := pushAll_map [v1, v2] rows (fun _ => [])
  simp only [List.nil_append] at this
  simp only [List.map_cons, List.map_nil] at this
  simp [Function.update_self, s, St.init, this]

theorem labelled : Labelled s := by
  intro m p hp
  cases m <;> (simp [s, Function.update] at hp)
  rcases hp with rfl | rfl <;> decide

/-- `top = MAX("v(1)" after=0 end 1, last)` -/
def call (items : List (Item × Gap)) (fn : List Char) : Call where
  name := ['t', 'o', 'p']
  b1 := [' ']
  b2 := [' ']
  fn := fn
  b3 := []
  b4 := []
  inner := ⟨some (.quoted '"' '"' ['V', '(', '1', ')'], ⟨[' '], false, []⟩), items⟩

def one : Numeral := ⟨none, [1], false, [], .word []⟩
def items : List (Item × Gap) := [
  (.num ['e', 'n', 'd'] true (.num one), ⟨[], true, [' ']⟩), (.flag ['l', 'a', 's', 't'], ⟨[], false, []⟩)]

theorem session (f : Fn) (items : List (Item × Gap)) (fn : List Char) : Session env s rows v1 ((call items fn).inner.names env f.names) where
  run := ⟨history, .tran, after, by simp [s], by
    intro q hq
    simp [s] at hq
    rcases hq with rfl | rfl
    · intro _; rfl
    · intro h; revert h; unfold SameName; decide +kernel⟩
  labelled := labelled
  named := by show SameName true v1.label ['V', '(', '1', ')']; unfold SameName; decide +kernel
  plain := by show ∀ x ∈ ['V', '(', '1', ')'], x ≠ '*' ∧ x ≠ '?'; decide

theorem one_good : one.Wf := ⟨by decide, by decide, by decide, by decide, by simp [one, Word]⟩

example : (call items ['M', 'A', 'X']).text [] = "top = MAX(\"V(1)\" end=1, last)".toList := by decide +kernel

theorem good (f : Fn) (hf : f = .max ∨ f = .min) (fn : List Char) (hfn : Plain fn) (hc : Called true f fn) : (call items fn).Good true f where
  name := by show Plain ['t', 'o', 'p']; exact ⟨by decide, by decide, by decide, by decide, by decide⟩
  fn := hfn
  called := hc
  blank := by show ∀ x ∈ [' ', ' '], isSpace x = true; decide
  inner := by
    rcases hf with rfl | rfl <;>
    exact ⟨⟨⟨⟨.before, by decide +kernel⟩, one_good⟩, ⟨by decide, by decide⟩, by decide, ⟨.last, .inl ⟨true, by decide +kernel⟩⟩, ⟨by decide, by decide⟩, by decide, trivial⟩,
      ⟨.inr (.inr ⟨rfl, rfl⟩), by decide⟩, ⟨by decide, by decide⟩, fun _ => by decide⟩

/-- the greatest of 0 and 2 is 2 -/
example : command env s ((call items ['M', 'A', 'X']).text []) = .value ['t', 'o', 'p'] (.num 2) [')'] := by
  rw [(session .max items _).line (good .max (.inl rfl) _ ⟨by decide, by decide, by decide, by decide, by decide⟩ (.inr ⟨rfl, by decide +kernel⟩)) []]
  have : Fn.value env ((call items ['M', 'A', 'X']).inner.args env Fn.max.names) (recorded v1 rows) .max = .num 2 := by decide +kernel
  rw [this]
  rfl

/-- the hypotheses of `measure_max` hold -/
example : ∃ t v, Measure.Greatest ((call items ['M', 'A', 'X']).inner.args env Fn.max.names |>.flag .last) (part env Fn.max.names (call items ['M', 'A', 'X']).inner (recorded v1 rows)) t v ∧
    command env s ((call items ['M', 'A', 'X']).text []) =
      .value ['t', 'o', 'p'] (.num (if ((call items ['M', 'A', 'X']).inner.args env Fn.max.names).flag .arg then t else v)) [')'] :=
  measure_max (session .max items _) (good .max (.inl rfl) _ ⟨by decide, by decide, by decide, by decide, by decide⟩ (.inr ⟨rfl, by decide +kernel⟩))
    (by decide +kernel) (by decide +kernel) []

/-- without quotes -/
example : command env s "top=max(v(1) end=1)".toList = .noProbe ['v'] :=
  unquoted_wrong env s labelled .max ['v'] (by simp) ['t', 'o', 'p'] [] [] ['m', 'a', 'x'] [] [] ⟨by decide, by decide, by decide, by decide, by decide⟩
    ⟨by decide, by decide, by decide, by decide, by decide⟩ (.inl (by decide)) (by simp) "1) end=1)".toList

/-- an operating point that did not start, with `v(2)` as its only probe: the wave of `v(1)` -/
example : ∃ t, After ([Op.store .op [v2]] ++ history ++ [.run .tran (.rows rows)] ++ [.run .op .early]) t ∧ findWave true t v2.label = .wave (recorded v1 rows) ∧
    recorded v1 rows ≠ recorded v2 rows := by
  obtain ⟨t, ht⟩ := steps_total ([Op.store .op [v2]] ++ history ++ [.run .tran (.rows rows)] ++ [.run .op .early]) .init
  refine ⟨t, ht, ?_, by decide +kernel⟩
  have hl : t.lists .op = [v2] ∧ t.lists .tran = [v1, v2] := by
    simp only [history, List.cons_append, List.nil_append, steps, run_records, Option.bind_some] at ht
    simp only [step, Option.bind_some, Option.some.injEq] at ht
    subst ht
    constructor <;> decide +kernel
  rw [early_wrong true _ .tran .op rows t ht 0 v2.label (by rw [hl.1]; decide +kernel), hl.2]
  rfl

/-- the part of `v(1)` is deleted: `v(2)` is given the wave of `v(1)` -/
example (t : St) (ht : step s (.purge (· == 0)) = some t) : findWave true t v2.label = .wave (recorded v1 rows) :=
  purge_wrong true history .tran rows s t after (· == 0) ht v1 v2 [] (by simp [s]) rfl rfl _ (by decide +kernel)

/-- a listing of the probes hides the waves -/
example (t : St) (ht : After ((history ++ [.run .tran (.rows rows)]) ++ [.other]) t) : findWave true t v1.label = .none ∧ findWave true s v1.label = .wave (recorded v1 rows) :=
  ⟨after_probe_wrong true _ .other (.inl rfl) t ht _, by decide +kernel⟩

/-- a transient analysis with an error in its line, first thing -/
example (t : St) (ht : After (history ++ [.run .tran .early]) t) (hp : v1 ∈ t.lists .tran) : findWave true t v1.label = .ub :=
  null_wrong true history (by intro o ho m l; simp [history] at ho; subst ho; simp) .tran t ht v1 hp _ (by decide +kernel)

end Demo

end Gnucap.MeasCmd
