import Verif.SessModel
import Mathlib.Tactic

/-!
# C95: a session does what is asked, line by line, whatever fails

The specification has no run mode in its state: a line is read in a mode given by the files around it (`Does`), the lines typed are all read in
mode interactive (`Sits`), the arguments ask for things one by one (`Reads`, `Asked`).
-/
namespace Gnucap.Sess
variable {α σ : Type}

/-! ## Specification -/

/-- what a line does, read in a mode, a directory and a state: how it ends, in which directory, in which state -/
inductive Does (W : World α σ) : Mode → Job α → List Char → σ → Stop → List Char → σ → Prop where
  | nop {m c u} : Does W m .nop c u .ok c u
  | done {m a c u u'} : W.does a c u = (.done, u') → Does W m (.act a) c u .ok c u'
  | fails {m a c u u'} : W.does a c u = (.exc, u') → Does W m (.act a) c u .exc c u'
  | ends {m a c u u'} : W.does a c u = (.eof, u') → Does W m (.act a) c u .eof c u'
  /-- an analysis is run -/
  | runs {m a c u u'} : m ≠ .preset → W.sets a u = (true, u') → Does W m (.ana a) c u .ok c (W.sweeps a u')
  /-- its parameters are wrong -/
  | badly {m a c u u'} : W.sets a u = (false, u') → Does W m (.ana a) c u .ok c u'
  /-- or only kept -/
  | keeps {a c u b u'} : W.sets a u = (b, u') → Does W .preset (.ana a) c u .ok c u'
  | quits {m c u} : m ≠ .preset → Does W m .quit c u (.exit 0) c (W.clear u)
  | stays {c u} : Does W .preset .quit c u .ok c u
  | ended {m c u} : m = .interactive ∨ m = .batch → Does W m .fin c u (.exit 0) c (W.clear u)
  | back {c u} : Does W .script .fin c u .exc c u
  | passed {c u} : Does W .preset .fin c u .ok c u
  | first {m a b c u c' u' s c'' u''} : Does W m a c u .ok c' u' → Does W m b c' u' s c'' u'' → Does W m (.seq a b) c u s c'' u''
  | stop {m a b c u s c' u'} : Does W m a c u s c' u' → s ≠ .ok → Does W m (.seq a b) c u s c' u'
  /-- the lines of a file, read to the end of it -/
  | script {m j c u s c' u'} : Does W .script j c u s c' u' → (s = .ok ∨ s = .eof) → Does W m (.file .run j) c u .ok c u'
  | got {m j c u s c' u'} : Does W .preset j c (W.clear u) s c' u' → (s = .ok ∨ s = .eof) → Does W m (.file .get j) c u .ok c u'
  | merged {m j c u s c' u'} : Does W .preset j c u s c' u' → (s = .ok ∨ s = .eof) → Does W m (.file .merge j) c u .ok c u'
  | incl {m j c u s c' u'} : Does W m j c u s c' u' → (s = .ok ∨ s = .eof) → Does W m (.file .incl j) c u .ok c u'
  | rel {m d j c u s c' u'} : Does W m j d u s c' u' → (s = .ok ∨ s = .eof) → Does W m (.file (.rel d) j) c u .ok c u'
  /-- not to the end: an exception, or the process is over -/
  | scriptX {m j c u s c' u'} : Does W .script j c u s c' u' → s ≠ .ok → s ≠ .eof → Does W m (.file .run j) c u s c' u'
  | gotX {m j c u s c' u'} : Does W .preset j c (W.clear u) s c' u' → s ≠ .ok → s ≠ .eof → Does W m (.file .get j) c u s c' u'
  | mergedX {m j c u s c' u'} : Does W .preset j c u s c' u' → s ≠ .ok → s ≠ .eof → Does W m (.file .merge j) c u s c' u'
  | inclX {m j c u s c' u'} : Does W m j c u s c' u' → s ≠ .ok → s ≠ .eof → Does W m (.file .incl j) c u s c' u'
  | relX {m d j c u s c' u'} : Does W m j d u s c' u' → s ≠ .ok → s ≠ .eof → Does W m (.file (.rel d) j) c u s c' u'
  /-- files with nothing in them -/
  | noTitle {m c u} : Does W m (.hollow .run) c u .eof c u
  | noTitleGet {m c u} : Does W m (.hollow .get) c u .eof c (W.clear u)
  | nothing {m h c u} : h ≠ .run → h ≠ .get → Does W m (.hollow h) c u .ok c u

/-- no interrupt -/
def Calm : Job α → Prop
  | .intr => False
  | .seq a b => Calm a ∧ Calm b
  | .file _ j => Calm j
  | _ => True

/-- what the lines typed at the prompt do: the code of the process and the state left -/
inductive Sits (W : World α σ) : List (Job α) → List Char → σ → ℕ → σ → Prop where
  | eof {c u} : Sits W [] c u 0 (W.detach (W.clear (W.tidy u)))
  | ok {j js c u c' u' n v} : Does W .interactive j c u .ok c' u' → Sits W js c' u' n v → Sits W (j :: js) c u n v
  | exc {j js c u c' u' n v} : Does W .interactive j c u .exc c' u' → Sits W js c' (W.tidy u') n v → Sits W (j :: js) c u n v
  | gone {j js c u c' u'} : Does W .interactive j c u .eof c' u' → Sits W (j :: js) c u 0 (W.detach (W.clear (W.tidy u')))
  | quit {j js c u n c' u'} : Does W .interactive j c u (.exit n) c' u' → Sits W (j :: js) c u n u'

/-- a word that is no option -/
def Bare (a : List Char) : Prop :=
  (∀ t, a ≠ '-' :: '-' :: t) ∧ ∀ c ∈ ['c', 'C', 'i', 'I', 'b', 'B', 'a', 'A'], a ≠ ['-', c]

/-- what the arguments ask for, and whether the program leaves then -/
inductive Reads : List (List Char) → List Req → Bool → Prop where
  | none : Reads [] [] false
  | long {t as rs q} : Reads as rs q → Reads (('-' :: '-' :: t) :: as) (.text t :: rs) q
  | cmd {o t as rs q} : o = 'c' ∨ o = 'C' → Reads as rs q → Reads (['-', o] :: t :: as) (.text t :: rs) q
  | incl {o f as rs q} : o = 'i' ∨ o = 'I' → Reads as rs q → Reads (['-', o] :: f :: as) (.incl f :: rs) q
  | load {o f as rs q} : o = 'a' ∨ o = 'A' → Reads as rs q → Reads (['-', o] :: f :: as) (.load f :: rs) q
  | batch {o f a as rs q} : o = 'b' ∨ o = 'B' → Reads (a :: as) rs q → Reads (['-', o] :: f :: a :: as) (.run f :: rs) q
  | batchLast {o f} : o = 'b' ∨ o = 'B' → Reads [['-', o], f] [.run f] true
  | batchStdin {o} : o = 'b' ∨ o = 'B' → Reads [['-', o]] [.run "/dev/stdin".toList] true
  | file {f a as rs q} : Bare f → Reads (a :: as) rs q → Reads (f :: a :: as) (.incl f :: rs) q
  | fileLast {f} : Bare f → Reads [f] [.incl f] true
  /-- an option that misses its word is nothing -/
  | cut {o} : o ∈ ['c', 'C', 'i', 'I', 'a', 'A'] → Reads [['-', o]] [] false

/-- all of it is done, in order, whatever fails; or the process ends on the way -/
inductive Asked (W : World α σ) : List Req → List Char → σ → Option ℕ → List Char → σ → Prop where
  | nil {c u} : Asked W [] c u none c u
  | ok {r rs c u c' u' n c'' u''} : Does W .batch (W.job r c) c u .ok c' u' → Asked W rs c' u' n c'' u'' → Asked W (r :: rs) c u n c'' u''
  | bad {r rs c u s c' u' n c'' u''} : Does W .batch (W.job r c) c u s c' u' → (s = .exc ∨ s = .eof) → Asked W rs c' (W.tidy u') n c'' u'' →
      Asked W (r :: rs) c u n c'' u''
  | exit {r rs c u n c' u'} : Does W .batch (W.job r c) c u (.exit n) c' u' → Asked W (r :: rs) c u (some n) c' u'

/-! ## Lines -/

theorem does_exec {W : World α σ} {m j c u s c' u'} (h : Does W m j c u s c' u') :
    ∃ m', exec W j ⟨m, c, u⟩ = (s, ⟨m', c', u'⟩) ∧ ((∀ n, s ≠ .exit n) → m' = m) ∧ s ≠ .jump ∧ s ≠ .exit 1 := by
  induction h with
  | nop => exact ⟨_, rfl, by simp, by simp, by simp⟩
  | @done m _ _ _ _ h => exact ⟨m, by simp [exec, h], by simp, by simp, by simp⟩
  | @fails m _ _ _ _ h => exact ⟨m, by simp [exec, h], by simp, by simp, by simp⟩
  | @ends m _ _ _ _ h => exact ⟨m, by simp [exec, h], by simp, by simp, by simp⟩
  | @runs m _ _ _ _ hm h => exact ⟨m, by simp [exec, doAna, h, hm], by simp, by simp, by simp⟩
  | @badly m _ _ _ _ h => exact ⟨m, by simp [exec, doAna, h], by simp, by simp, by simp⟩
  | keeps h => exact ⟨.preset, by simp [exec, doAna, h], by simp, by simp, by simp⟩
  | @quits m c u hm => cases m <;> first | exact absurd rfl hm | exact ⟨_, rfl, by simp, by simp, by simp⟩
  | stays => exact ⟨_, rfl, by simp, by simp, by simp⟩
  | ended h => rcases h with rfl | rfl <;> exact ⟨_, rfl, by simp, by simp, by simp⟩
  | back => exact ⟨_, rfl, by simp, by simp, by simp⟩
  | passed => exact ⟨_, rfl, by simp, by simp, by simp⟩
  | first _ _ ih1 ih2 =>
    obtain ⟨m1, h1, k1, -⟩ := ih1; obtain rfl := k1 (by simp); obtain ⟨m2, h2, k2⟩ := ih2
    exact ⟨m2, by simp [exec, h1, h2], k2⟩
  | @stop m a b c u s c' u' _ hs ih =>
    obtain ⟨m1, h1, k1⟩ := ih
    refine ⟨m1, ?_, k1⟩
    cases s <;> simp_all [exec]
  | @script m _ _ _ _ _ _ _ hs ih => obtain ⟨m1, h1, k1⟩ := ih; rcases hs with rfl | rfl <;> exact ⟨m, by simp [exec, How.mode, How.dir, h1, leave], by simp⟩
  | @got m _ _ _ _ _ _ _ hs ih => obtain ⟨m1, h1, k1⟩ := ih; rcases hs with rfl | rfl <;> exact ⟨m, by simp [exec, How.mode, How.dir, h1, leave], by simp⟩
  | @merged m _ _ _ _ _ _ _ hs ih => obtain ⟨m1, h1, k1⟩ := ih; rcases hs with rfl | rfl <;> exact ⟨m, by simp [exec, How.mode, How.dir, h1, leave], by simp⟩
  | @incl m _ _ _ _ _ _ _ hs ih => obtain ⟨m1, h1, k1⟩ := ih; rcases hs with rfl | rfl <;> exact ⟨m, by simp [exec, How.mode, How.dir, h1, leave], by simp⟩
  | @rel m _ _ _ _ _ _ _ _ hs ih => obtain ⟨m1, h1, k1⟩ := ih; rcases hs with rfl | rfl <;> exact ⟨m, by simp [exec, How.mode, How.dir, h1, leave], by simp⟩
  | @scriptX m j c u s c' u' _ hs he ih =>
    obtain ⟨m1, h1, k1⟩ := ih
    cases s <;> first | exact absurd rfl hs | exact absurd rfl he | exact ⟨_, by simp [exec, How.mode, How.dir, h1, leave]; rfl, by simp_all⟩
  | @gotX m j c u s c' u' _ hs he ih =>
    obtain ⟨m1, h1, k1⟩ := ih
    cases s <;> first | exact absurd rfl hs | exact absurd rfl he | exact ⟨_, by simp [exec, How.mode, How.dir, h1, leave]; rfl, by simp_all⟩
  | @mergedX m j c u s c' u' _ hs he ih =>
    obtain ⟨m1, h1, k1⟩ := ih
    cases s <;> first | exact absurd rfl hs | exact absurd rfl he | exact ⟨_, by simp [exec, How.mode, How.dir, h1, leave]; rfl, by simp_all⟩
  | @inclX m j c u s c' u' _ hs he ih =>
    obtain ⟨m1, h1, k1⟩ := ih
    cases s <;> first | exact absurd rfl hs | exact absurd rfl he | exact ⟨_, by simp [exec, How.mode, How.dir, h1, leave]; rfl, by simp_all⟩
  | @relX m d j c u s c' u' _ hs he ih =>
    obtain ⟨m1, h1, k1⟩ := ih
    cases s <;> first | exact absurd rfl hs | exact absurd rfl he | exact ⟨_, by simp [exec, How.mode, How.dir, h1, leave]; rfl, by simp_all⟩
  | noTitle => exact ⟨_, rfl, by simp, by simp, by simp⟩
  | noTitleGet => exact ⟨_, rfl, by simp, by simp, by simp⟩
  | @nothing m h c u h1 h2 => cases h <;> first | exact absurd rfl h1 | exact absurd rfl h2 | exact ⟨_, rfl, by simp, by simp, by simp⟩

/-- a line without an interrupt does one thing -/
theorem does_total (W : World α σ) : ∀ (j : Job α), Calm j → ∀ m c u, ∃ s c' u', Does W m j c u s c' u'
  | .nop, _, m, c, u => ⟨_, _, _, .nop⟩
  | .act a, _, m, c, u => by
    rcases h : W.does a c u with ⟨g, u'⟩
    cases g
    · exact ⟨_, _, _, .done h⟩
    · exact ⟨_, _, _, .fails h⟩
    · exact ⟨_, _, _, .ends h⟩
  | .ana a, _, m, c, u => by
    rcases h : W.sets a u with ⟨b, u'⟩
    cases b
    · exact ⟨_, _, _, .badly h⟩
    · by_cases hm : m = .preset
      · subst hm; exact ⟨_, _, _, .keeps h⟩
      · exact ⟨_, _, _, .runs hm h⟩
  | .quit, _, m, c, u => by
    by_cases hm : m = .preset
    · subst hm; exact ⟨_, _, _, .stays⟩
    · exact ⟨_, _, _, .quits hm⟩
  | .fin, _, m, c, u => by
    cases m
    · exact ⟨_, _, _, .passed⟩
    · exact ⟨_, _, _, .ended (.inl rfl)⟩
    · exact ⟨_, _, _, .back⟩
    · exact ⟨_, _, _, .ended (.inr rfl)⟩
  | .intr, h, _, _, _ => h.elim
  | .seq a b, h, m, c, u => by
    obtain ⟨s, c', u', h1⟩ := does_total W a h.1 m c u
    by_cases hs : s = .ok
    · subst hs
      obtain ⟨s2, c2, u2, h2⟩ := does_total W b h.2 m c' u'
      exact ⟨_, _, _, .first h1 h2⟩
    · exact ⟨_, _, _, .stop h1 hs⟩
  | .file h j, hc, m, c, u => by
    have key : ∀ m c u, ∃ s c' u', Does W m j c u s c' u' := does_total W j hc
    cases h with
    | run =>
      obtain ⟨s, c', u', h1⟩ := key .script c u
      by_cases hs : s = .ok ∨ s = .eof
      · exact ⟨_, _, _, .script h1 hs⟩
      · exact ⟨_, _, _, .scriptX h1 (fun h => hs (.inl h)) (fun h => hs (.inr h))⟩
    | get =>
      obtain ⟨s, c', u', h1⟩ := key .preset c (W.clear u)
      by_cases hs : s = .ok ∨ s = .eof
      · exact ⟨_, _, _, .got h1 hs⟩
      · exact ⟨_, _, _, .gotX h1 (fun h => hs (.inl h)) (fun h => hs (.inr h))⟩
    | merge =>
      obtain ⟨s, c', u', h1⟩ := key .preset c u
      by_cases hs : s = .ok ∨ s = .eof
      · exact ⟨_, _, _, .merged h1 hs⟩
      · exact ⟨_, _, _, .mergedX h1 (fun h => hs (.inl h)) (fun h => hs (.inr h))⟩
    | incl =>
      obtain ⟨s, c', u', h1⟩ := key m c u
      by_cases hs : s = .ok ∨ s = .eof
      · exact ⟨_, _, _, .incl h1 hs⟩
      · exact ⟨_, _, _, .inclX h1 (fun h => hs (.inl h)) (fun h => hs (.inr h))⟩
    | rel d =>
      obtain ⟨s, c', u', h1⟩ := key m d u
      by_cases hs : s = .ok ∨ s = .eof
      · exact ⟨_, _, _, .rel h1 hs⟩
      · exact ⟨_, _, _, .relX h1 (fun h => hs (.inl h)) (fun h => hs (.inr h))⟩
  | .hollow h, _, m, c, u => by
    cases h with
    | run => exact ⟨_, _, _, .noTitle⟩
    | get => exact ⟨_, _, _, .noTitleGet⟩
    | merge => exact ⟨_, _, _, .nothing (by simp) (by simp)⟩
    | incl => exact ⟨_, _, _, .nothing (by simp) (by simp)⟩
    | rel d => exact ⟨_, _, _, .nothing (by simp) (by simp)⟩

/-- **the code does with a line what it means, and nothing else** -/
theorem line_runs (W : World α σ) (j : Job α) (hj : Calm j) (m : Mode) (c : List Char) (u : σ) (s : Stop) (c' : List Char) (u' : σ) :
    Does W m j c u s c' u' ↔ ∃ m', exec W j ⟨m, c, u⟩ = (s, ⟨m', c', u'⟩) := by
  constructor
  · intro h; obtain ⟨m', h', _⟩ := does_exec h; exact ⟨m', h'⟩
  · rintro ⟨m', h'⟩
    obtain ⟨s1, c1, u1, h1⟩ := does_total W j hj m c u
    obtain ⟨m1, h2, -⟩ := does_exec h1
    rw [h'] at h2; cases h2; exact h1

/-- however a line ends, if the program goes on the run mode is the old one, interrupts or not; only an interrupt itself may change it -/
theorem mode_kept (W : World α σ) : ∀ (j : Job α) (st : St σ), (∀ n, (exec W j st).1 ≠ .exit n) → (exec W j st).1 ≠ .jump →
    (exec W j st).2.mode = st.mode
  | .nop, st => by simp [exec]
  | .act a, st => by simp [exec]
  | .ana a, st => by simp [exec, doAna]
  | .quit, st => by rcases st with ⟨_ | _ | _ | _, c, u⟩ <;> simp [exec, doQuit]
  | .fin, st => by rcases st with ⟨_ | _ | _ | _, c, u⟩ <;> simp [exec, doEnd, doQuit]
  | .intr, st => by rcases st with ⟨_ | _ | _ | _, c, u⟩ <;> simp [exec, doIntr]
  | .seq a b, st => by
    have ha := mode_kept W a st
    simp only [exec]
    rcases h : exec W a st with ⟨s, st'⟩
    rw [h] at ha
    cases s
    · have hb := mode_kept W b st'
      intro h1 h2; rw [hb h1 h2]; exact ha (by simp) (by simp)
    · intro h1 h2; exact ha h1 h2
    · intro h1 h2; exact ha h1 h2
    · intro h1 _; exact absurd rfl (h1 _)
    · intro _ h2; exact absurd rfl h2
  | .file h j, st => by
    simp only [exec]
    rcases exec W j _ with ⟨s, st'⟩
    cases s <;> simp [leave]
  | .hollow h, st => by cases h <;> simp [exec, doHollow]

/-- a line that ends without exception leaves the directory as it was -/
theorem dir_kept {W : World α σ} {m j c u s c' u'} (h : Does W m j c u s c' u') (hs : s = .ok) : c' = c := by
  induction h with
  | first _ _ ih1 ih2 => rw [ih2 hs, ih1 rfl]
  | stop _ h _ => exact absurd hs h
  | scriptX _ h _ _ => exact absurd hs h
  | gotX _ h _ _ => exact absurd hs h
  | mergedX _ h _ _ => exact absurd hs h
  | inclX _ h _ _ => exact absurd hs h
  | relX _ h _ _ => exact absurd hs h
  | _ => rfl

/-! ## The prompt -/

/-- **each line typed is run once, in order, in mode interactive, whatever the ones before did** -/
theorem typed_runs {W : World α σ} {js c u n v} (h : Sits W js c u n v) :
    ∃ st, prompt W js ⟨.interactive, c, u⟩ = .code n st ∧ st.user = v := by
  induction h with
  | eof => exact ⟨_, rfl, rfl⟩
  | ok h _ ih =>
    obtain ⟨m, h1, k, -⟩ := does_exec h; obtain rfl := k (by simp)
    simpa [prompt, h1] using ih
  | exc h _ ih =>
    obtain ⟨m, h1, k, -⟩ := does_exec h; obtain rfl := k (by simp)
    simpa [prompt, h1, finish] using ih
  | gone h =>
    obtain ⟨m, h1, k, -⟩ := does_exec h
    exact ⟨_, by simp [prompt, h1, close]; rfl, by simp [finish]⟩
  | quit h =>
    obtain ⟨m, h1, k, -⟩ := does_exec h
    exact ⟨_, by simp [prompt, h1]; rfl, rfl⟩

theorem typed_total (W : World α σ) : ∀ (js : List (Job α)), (∀ j ∈ js, Calm j) → ∀ c u, ∃ n v, Sits W js c u n v
  | [], _, c, u => ⟨_, _, .eof⟩
  | j :: js, h, c, u => by
    obtain ⟨s, c', u', h1⟩ := does_total W j (h j (by simp)) .interactive c u
    have hr := typed_total W js (fun j hj => h j (by simp [hj]))
    cases s with
    | ok => obtain ⟨n, v, hv⟩ := hr c' u'; exact ⟨n, v, .ok h1 hv⟩
    | exc => obtain ⟨n, v, hv⟩ := hr c' (W.tidy u'); exact ⟨n, v, .exc h1 hv⟩
    | eof => exact ⟨_, _, .gone h1⟩
    | exit n => exact ⟨_, _, .quit h1⟩
    | jump => obtain ⟨_, _, _, hj, _⟩ := does_exec h1; exact absurd rfl hj

/-- the process ends with code 0 and what is left was cleared, by `quit` or at the end -/
theorem sits_end {W : World α σ} {js c u n v} (h : Sits W js c u n v) : n = 0 ∧ ((∃ w, v = W.clear w) ∨ ∃ w, v = W.detach (W.clear w)) := by
  have key : ∀ {m j c u s c' u'}, Does W m j c u s c' u' → ∀ n, s = .exit n → n = 0 ∧ ∃ w, u' = W.clear w := by
    intro m j c u s c' u' h
    induction h with
    | quits _ => intro n hn; cases hn; exact ⟨rfl, _, rfl⟩
    | ended _ => intro n hn; cases hn; exact ⟨rfl, _, rfl⟩
    | first _ _ _ ih => exact ih
    | stop _ _ ih => exact ih
    | scriptX _ _ _ ih => exact ih
    | gotX _ _ _ ih => exact ih
    | mergedX _ _ _ ih => exact ih
    | inclX _ _ _ ih => exact ih
    | relX _ _ _ ih => exact ih
    | _ => intro n hn; cases hn
  induction h with
  | eof => exact ⟨rfl, .inr ⟨_, rfl⟩⟩
  | ok _ _ ih => exact ih
  | exc _ _ ih => exact ih
  | gone _ => exact ⟨rfl, .inr ⟨_, rfl⟩⟩
  | quit h => exact ⟨(key h _ rfl).1, .inl (key h _ rfl).2⟩

/-! ## The arguments -/

theorem opt_iff (c : Char) (a : List Char) : isOpt c a = true ↔ a = ['-', c] ∨ a = ['-', c.toUpper] := by
  simp [isOpt]

theorem bare_opt {a : List Char} (h : Bare a) : ['-', '-'].isPrefixOf a = false ∧ isOpt 'c' a = false ∧ isOpt 'i' a = false ∧ isOpt 'b' a = false ∧
    isOpt 'a' a = false := by
  have up : 'c'.toUpper = 'C' ∧ 'i'.toUpper = 'I' ∧ 'b'.toUpper = 'B' ∧ 'a'.toUpper = 'A' := by decide +kernel
  refine ⟨?_, ?_, ?_, ?_, ?_⟩
  · rw [Bool.eq_false_iff]
    intro hp
    obtain ⟨t, ht⟩ := List.isPrefixOf_iff_prefix.mp hp
    exact h.1 t ht.symm
  all_goals
    rw [Bool.eq_false_iff]
    intro hp
    rw [opt_iff] at hp
    rcases hp with hp | hp
    · exact h.2 _ (by simp) hp
    · first | rw [up.1] at hp | skip
      first | rw [up.2.1] at hp | skip
      first | rw [up.2.2.1] at hp | skip
      first | rw [up.2.2.2] at hp | skip
      exact h.2 _ (by simp) hp

theorem ask_ok {W : World α σ} {r c u c' u'} {k : St σ → Over × St σ} (h : Does W .batch (W.job r c) c u .ok c' u') :
    ask W r ⟨.batch, c, u⟩ k = k ⟨.batch, c', u'⟩ := by
  obtain ⟨m, h1, h2, -⟩ := does_exec h; obtain rfl := h2 (by simp)
  simp [ask, h1]

theorem ask_bad {W : World α σ} {r c u s c' u'} {k : St σ → Over × St σ} (h : Does W .batch (W.job r c) c u s c' u') (hs : s = .exc ∨ s = .eof) :
    ask W r ⟨.batch, c, u⟩ k = k ⟨.batch, c', W.tidy u'⟩ := by
  obtain ⟨m, h1, h2, -⟩ := does_exec h
  rcases hs with rfl | rfl <;> (obtain rfl := h2 (by simp); simp [ask, h1, finish])

theorem ask_exit {W : World α σ} {r c u n c' u'} {k : St σ → Over × St σ} (h : Does W .batch (W.job r c) c u (.exit n) c' u') :
    ∃ m, ask W r ⟨.batch, c, u⟩ k = (.exit n, ⟨m, c', u'⟩) := by
  obtain ⟨m, h1, -⟩ := does_exec h
  exact ⟨m, by simp [ask, h1]⟩

/-- how the command line ends -/
def overOf (q : Bool) : Option ℕ → Over
  | some k => .exit k
  | none => if q then .leaves else .prompt

/-- one thing asked for, and the others -/
theorem ask_step {W : World α σ} {r rs c u n c' u'} {k : St σ → Over × St σ} {q : Bool}
    (hk : ∀ {c u n c' u'}, Asked W rs c u n c' u' → ∃ m, k ⟨.batch, c, u⟩ = (overOf q n, ⟨m, c', u'⟩) ∧ (n = none → m = .batch))
    (h : Asked W (r :: rs) c u n c' u') : ∃ m, ask W r ⟨.batch, c, u⟩ k = (overOf q n, ⟨m, c', u'⟩) ∧ (n = none → m = .batch) := by
  cases h with
  | ok h h' => rw [ask_ok h]; exact hk h'
  | bad h hs h' => rw [ask_bad h hs]; exact hk h'
  | exit h => obtain ⟨m, hm⟩ := ask_exit (k := k) h; exact ⟨m, by rw [hm]; rfl, by simp⟩

theorem nil_step {W : World α σ} {c u n c' u'} {k : St σ → Over × St σ} {q : Bool} (hk : ∀ st, k st = (if q then .leaves else .prompt, st))
    (h : Asked W [] c u n c' u') : ∃ m, k ⟨.batch, c, u⟩ = (overOf q n, ⟨m, c', u'⟩) ∧ (n = none → m = .batch) := by
  cases h; exact ⟨.batch, by rw [hk]; rfl, by simp⟩

/-- **the arguments do what they ask for, one by one, whatever fails; then the program leaves or asks** -/
theorem args_run {W : World α σ} {as rs q} (h : Reads as rs q) : ∀ {c u n c' u'}, Asked W rs c u n c' u' →
    ∃ m, cmdline W as ⟨.batch, c, u⟩ = (overOf q n, ⟨m, c', u'⟩) ∧ (n = none → m = .batch) := by
  have opts : ∀ c' ∈ ['c', 'C', 'i', 'I', 'b', 'B', 'a', 'A'], ['-', '-'].isPrefixOf ['-', c'] = false := by decide +kernel
  have oc : isOpt 'c' ['-', 'c'] = true ∧ isOpt 'c' ['-', 'C'] = true := by decide +kernel
  have oi : (isOpt 'c' ['-', 'i'] = false ∧ isOpt 'c' ['-', 'I'] = false) ∧ isOpt 'i' ['-', 'i'] = true ∧ isOpt 'i' ['-', 'I'] = true := by decide +kernel
  have ob : (isOpt 'c' ['-', 'b'] = false ∧ isOpt 'c' ['-', 'B'] = false) ∧ (isOpt 'i' ['-', 'b'] = false ∧ isOpt 'i' ['-', 'B'] = false) ∧
    isOpt 'b' ['-', 'b'] = true ∧ isOpt 'b' ['-', 'B'] = true := by decide +kernel
  have oa : (isOpt 'c' ['-', 'a'] = false ∧ isOpt 'c' ['-', 'A'] = false) ∧ (isOpt 'i' ['-', 'a'] = false ∧ isOpt 'i' ['-', 'A'] = false) ∧
    (isOpt 'b' ['-', 'a'] = false ∧ isOpt 'b' ['-', 'A'] = false) ∧ isOpt 'a' ['-', 'a'] = true ∧ isOpt 'a' ['-', 'A'] = true := by decide +kernel
  induction h with
  | none => intro c u n c' u' h; exact nil_step (q := false) (by intro st; simp [cmdline]) h
  | @long t as rs q _ ih =>
    intro c u n c' u' h
    have hp : ['-', '-'].isPrefixOf ('-' :: '-' :: t) = true := List.isPrefixOf_iff_prefix.mpr ⟨t, rfl⟩
    have := ask_step (k := cmdline W as) ih h
    rw [cmdline.eq_def]; simpa [hp] using this
  | @cmd o t as rs q ho _ ih =>
    intro c u n c' u' h
    have := ask_step (k := cmdline W as) ih h
    rcases ho with rfl | rfl <;> simpa [cmdline, opts, oc] using this
  | @incl o f as rs q ho _ ih =>
    intro c u n c' u' h
    have := ask_step (k := cmdline W as) ih h
    rcases ho with rfl | rfl <;> simpa [cmdline, opts, oi] using this
  | @load o f as rs q ho _ ih =>
    intro c u n c' u' h
    have := ask_step (k := cmdline W as) ih h
    rcases ho with rfl | rfl <;> simpa [cmdline, opts, oa] using this
  | @batch o f a as rs q ho _ ih =>
    intro c u n c' u' h
    have := ask_step (k := lastOr (a :: as) (cmdline W (a :: as))) (by intros; simpa [lastOr] using ih ‹_›) h
    rcases ho with rfl | rfl <;> (rw [cmdline]; simpa [opts, ob] using this)
  | @batchLast o f ho =>
    intro c u n c' u' h
    have := ask_step (k := lastOr [] (cmdline W [])) (q := true) (fun h => nil_step (q := true) (by intro st; simp [lastOr]) h) h
    rcases ho with rfl | rfl <;> (rw [cmdline]; simpa [opts, ob] using this)
  | @batchStdin o ho =>
    intro c u n c' u' h
    have := ask_step (k := lastOr [] (fun s => (.prompt, s))) (q := true) (fun h => nil_step (q := true) (by intro st; simp [lastOr]) h) h
    have e : stdin = "/dev/stdin".toList := by decide +kernel
    rcases ho with rfl | rfl <;> (rw [cmdline]; simpa [opts, ob, e] using this)
  | @file f a as rs q hf _ ih =>
    intro c u n c' u' h
    have := ask_step (k := lastOr (a :: as) (cmdline W (a :: as))) (by intros; simpa [lastOr] using ih ‹_›) h
    obtain ⟨h1, h2, h3, h4, h5⟩ := bare_opt hf
    rw [cmdline]; simpa [h1, h2, h3, h4, h5] using this
  | @fileLast f hf =>
    intro c u n c' u' h
    have := ask_step (k := lastOr [] (cmdline W [])) (q := true) (fun h => nil_step (q := true) (by intro st; simp [lastOr]) h) h
    obtain ⟨h1, h2, h3, h4, h5⟩ := bare_opt hf
    rw [cmdline]; simpa [h1, h2, h3, h4, h5] using this
  | @cut o ho =>
    intro c u n c' u' h
    refine nil_step (k := cmdline W [['-', o]]) (q := false) (fun st => ?_) h
    simp only [List.mem_cons, List.not_mem_nil, or_false] at ho
    rcases ho with rfl | rfl | rfl | rfl | rfl | rfl <;> simp [cmdline, opts, oc, oi, oa]

theorem bare_or (a : List Char) : Bare a ∨ (∃ t, a = '-' :: '-' :: t) ∨ ∃ o ∈ ['c', 'C', 'i', 'I', 'b', 'B', 'a', 'A'], a = ['-', o] := by
  by_cases h1 : ∃ t, a = '-' :: '-' :: t
  · exact .inr (.inl h1)
  by_cases h2 : ∃ o ∈ ['c', 'C', 'i', 'I', 'b', 'B', 'a', 'A'], a = ['-', o]
  · exact .inr (.inr h2)
  exact .inl ⟨fun t ht => h1 ⟨t, ht⟩, fun c hc ha => h2 ⟨c, hc, ha⟩⟩

/-- all arguments can be read -/
theorem reads_total : ∀ as : List (List Char), ∃ rs q, Reads as rs q
  | [] => ⟨_, _, .none⟩
  | [a] => by
    rcases bare_or a with h | ⟨t, rfl⟩ | ⟨o, ho, rfl⟩
    · exact ⟨_, _, .fileLast h⟩
    · exact ⟨_, _, .long .none⟩
    · simp only [List.mem_cons, List.not_mem_nil, or_false] at ho
      rcases ho with rfl | rfl | rfl | rfl | rfl | rfl | rfl | rfl
      · exact ⟨_, _, .cut (by simp)⟩
      · exact ⟨_, _, .cut (by simp)⟩
      · exact ⟨_, _, .cut (by simp)⟩
      · exact ⟨_, _, .cut (by simp)⟩
      · exact ⟨_, _, .batchStdin (.inl rfl)⟩
      · exact ⟨_, _, .batchStdin (.inr rfl)⟩
      · exact ⟨_, _, .cut (by simp)⟩
      · exact ⟨_, _, .cut (by simp)⟩
  | a :: b :: as => by
    obtain ⟨rs, q, hr⟩ := reads_total as
    obtain ⟨rs1, q1, hr1⟩ := reads_total (b :: as)
    rcases bare_or a with h | ⟨t, rfl⟩ | ⟨o, ho, rfl⟩
    · exact ⟨_, _, .file h hr1⟩
    · exact ⟨_, _, .long hr1⟩
    · simp only [List.mem_cons, List.not_mem_nil, or_false] at ho
      rcases ho with rfl | rfl | rfl | rfl | rfl | rfl | rfl | rfl
      · exact ⟨_, _, .cmd (.inl rfl) hr⟩
      · exact ⟨_, _, .cmd (.inr rfl) hr⟩
      · exact ⟨_, _, .incl (.inl rfl) hr⟩
      · exact ⟨_, _, .incl (.inr rfl) hr⟩
      · cases as with
        | nil => exact ⟨_, _, .batchLast (.inl rfl)⟩
        | cons => exact ⟨_, _, .batch (.inl rfl) hr⟩
      · cases as with
        | nil => exact ⟨_, _, .batchLast (.inr rfl)⟩
        | cons => exact ⟨_, _, .batch (.inr rfl) hr⟩
      · exact ⟨_, _, .load (.inl rfl) hr⟩
      · exact ⟨_, _, .load (.inr rfl) hr⟩

/-- everything asked for is written down -/
def noting : World Req (List Req) where
  does r _ u := (.done, u ++ [r])
  sets _ u := (true, u)
  sweeps _ u := u
  clear u := u
  tidy u := u
  detach u := u
  job r _ := .act r

theorem noted (rs : List Req) (c : List Char) : ∀ u : List Req, Asked noting rs c u none c (u ++ rs) := by
  induction rs with
  | nil => intro u; simpa using Asked.nil
  | cons r rs ih => intro u; exact .ok (.done rfl) (by simpa using ih (u ++ [r]))

/-- in one way -/
theorem reads_unique {as rs q rs' q'} (h : Reads as rs q) (h' : Reads as rs' q') : rs' = rs ∧ q' = q := by
  obtain ⟨m, h1, -⟩ := args_run h (noted rs [] [])
  obtain ⟨m', h2, -⟩ := args_run h' (noted rs' [] [])
  rw [h1] at h2
  simp only [Prod.mk.injEq, St.mk.injEq, List.nil_append] at h2
  refine ⟨h2.2.2.2.symm, ?_⟩
  have := h2.1
  cases q <;> cases q' <;> simp [overOf] at this <;> rfl

theorem asked_total (W : World α σ) (hW : ∀ r c, Calm (W.job r c)) : ∀ (rs : List Req) (c : List Char) (u : σ), ∃ n c' u', Asked W rs c u n c' u'
  | [], c, u => ⟨_, _, _, .nil⟩
  | r :: rs, c, u => by
    obtain ⟨s, c', u', h1⟩ := does_total W (W.job r c) (hW r c) .batch c u
    cases s with
    | ok => obtain ⟨n, c2, u2, h2⟩ := asked_total W hW rs c' u'; exact ⟨_, _, _, .ok h1 h2⟩
    | exc => obtain ⟨n, c2, u2, h2⟩ := asked_total W hW rs c' (W.tidy u'); exact ⟨_, _, _, .bad h1 (.inl rfl) h2⟩
    | eof => obtain ⟨n, c2, u2, h2⟩ := asked_total W hW rs c' (W.tidy u'); exact ⟨_, _, _, .bad h1 (.inr rfl) h2⟩
    | exit n => exact ⟨_, _, _, .exit h1⟩
    | jump => obtain ⟨_, _, _, hj, _⟩ := does_exec h1; exact absurd rfl hj

/-! ## From start to end -/

/-- a whole session: code and state left -/
inductive Whole (W : World α σ) (start : Job α) (as : List (List Char)) (typed : List (Job α)) (c : List Char) (u : σ) : ℕ → σ → Prop where
  /-- the startup files fail: over -/
  | dead {s c0 u0} : Does W .batch start c u s c0 u0 → (s = .exc ∨ s = .eof) → Whole W start as typed c u 0 (W.detach (W.clear u0))
  | quit0 {n c0 u0} : Does W .batch start c u (.exit n) c0 u0 → Whole W start as typed c u n u0
  | quit {c0 u0 rs q n c1 u1} : Does W .batch start c u .ok c0 u0 → Reads as rs q → Asked W rs c0 u0 (some n) c1 u1 → Whole W start as typed c u n u1
  | leaves {c0 u0 rs c1 u1} : Does W .batch start c u .ok c0 u0 → Reads as rs true → Asked W rs c0 u0 none c1 u1 →
      Whole W start as typed c u 0 (W.detach (W.clear u1))
  | sits {c0 u0 rs c1 u1 n v} : Does W .batch start c u .ok c0 u0 → Reads as rs false → Asked W rs c0 u0 none c1 u1 →
      Sits W typed c1 u1 n v → Whole W start as typed c u n v

theorem exit_zero {W : World α σ} {m j c u s c' u'} (h : Does W m j c u s c' u') : ∀ n, s = .exit n → n = 0 ∧ ∃ w, u' = W.clear w := by
  induction h with
  | quits _ => intro n hn; cases hn; exact ⟨rfl, _, rfl⟩
  | ended _ => intro n hn; cases hn; exact ⟨rfl, _, rfl⟩
  | first _ _ _ ih => exact ih
  | stop _ _ ih => exact ih
  | scriptX _ _ _ ih => exact ih
  | gotX _ _ _ ih => exact ih
  | mergedX _ _ _ ih => exact ih
  | inclX _ _ _ ih => exact ih
  | relX _ _ _ ih => exact ih
  | _ => intro n hn; cases hn

/-- **a session is what it means** -/
theorem session_runs {W : World α σ} {start as typed c u n v} (h : Whole W start as typed c u n v) :
    ∃ st, main W start as typed c u = .code n st ∧ st.user = v := by
  cases h with
  | dead h hs =>
    obtain ⟨m, h1, -⟩ := does_exec h
    rcases hs with rfl | rfl <;> exact ⟨_, by rw [main, h1]; rfl, rfl⟩
  | quit0 h =>
    obtain ⟨m, h1, -⟩ := does_exec h
    obtain ⟨rfl, -⟩ := exit_zero h _ rfl
    exact ⟨_, by rw [main, h1]; rfl, rfl⟩
  | quit h hr ha =>
    obtain ⟨m, h1, k, -⟩ := does_exec h; obtain rfl := k (by simp)
    obtain ⟨m', h2, -⟩ := args_run hr ha
    exact ⟨_, by simp only [main, h1, h2, overOf]; rfl, rfl⟩
  | leaves h hr ha =>
    obtain ⟨m, h1, k, -⟩ := does_exec h; obtain rfl := k (by simp)
    obtain ⟨m', h2, -⟩ := args_run hr ha
    exact ⟨_, by simp only [main, h1, h2, overOf, if_true, close]; rfl, rfl⟩
  | sits h hr ha hs =>
    obtain ⟨m, h1, k, -⟩ := does_exec h; obtain rfl := k (by simp)
    obtain ⟨m', h2, -⟩ := args_run hr ha
    obtain ⟨st, h3, h4⟩ := typed_runs hs
    refine ⟨st, ?_, h4⟩
    rw [main, h1]; dsimp only; rw [h2]; simpa [overOf] using h3

theorem session_total (W : World α σ) (hW : ∀ r c, Calm (W.job r c)) (start : Job α) (hs : Calm start) (as : List (List Char)) (typed : List (Job α))
    (ht : ∀ j ∈ typed, Calm j) (c : List Char) (u : σ) : ∃ n v, Whole W start as typed c u n v := by
  obtain ⟨s, c0, u0, h0⟩ := does_total W start hs .batch c u
  obtain ⟨rs, q, hr⟩ := reads_total as
  cases s with
  | exc => exact ⟨_, _, .dead h0 (.inl rfl)⟩
  | eof => exact ⟨_, _, .dead h0 (.inr rfl)⟩
  | exit n => exact ⟨_, _, .quit0 h0⟩
  | jump => obtain ⟨_, _, _, hj, _⟩ := does_exec h0; exact absurd rfl hj
  | ok =>
    obtain ⟨n, c1, u1, h1⟩ := asked_total W hW rs c0 u0
    cases n with
    | some n => exact ⟨_, _, .quit h0 hr h1⟩
    | none =>
      cases q with
      | true => exact ⟨_, _, .leaves h0 hr h1⟩
      | false => obtain ⟨n, v, h2⟩ := typed_total W typed ht c1 u1; exact ⟨_, _, .sits h0 hr h1 h2⟩

/-- **without interrupts the circuit is always cleared in the end; and the code of the process is 0, whatever failed** -/
theorem code_zero_wrong (W : World α σ) (hW : ∀ r c, Calm (W.job r c)) (start : Job α) (hs : Calm start) (as : List (List Char)) (typed : List (Job α))
    (ht : ∀ j ∈ typed, Calm j) (c : List Char) (u : σ) :
    ∃ st, main W start as typed c u = .code 0 st ∧ ((∃ w, st.user = W.clear w) ∨ ∃ w, st.user = W.detach (W.clear w)) := by
  obtain ⟨n, v, h⟩ := session_total W hW start hs as typed ht c u
  obtain ⟨st, h1, rfl⟩ := session_runs h
  have key : ∀ {rs c u n c' u'}, Asked W rs c u n c' u' → ∀ k, n = some k → k = 0 ∧ ∃ w, u' = W.clear w := by
    intro rs c u n c' u' h
    induction h with
    | nil => intro k hk; cases hk
    | ok _ _ ih => exact ih
    | bad _ _ _ ih => exact ih
    | exit h => intro k hk; cases hk; exact exit_zero h _ rfl
  generalize hv : st.user = v at h ⊢
  cases h with
  | dead => exact ⟨st, h1, by rw [hv]; exact .inr ⟨_, rfl⟩⟩
  | quit0 h => obtain ⟨rfl, w, hw⟩ := exit_zero h _ rfl; exact ⟨st, h1, by rw [hv]; exact .inl ⟨w, hw⟩⟩
  | quit _ _ h => obtain ⟨rfl, w, hw⟩ := key h _ rfl; exact ⟨st, h1, by rw [hv]; exact .inl ⟨w, hw⟩⟩
  | leaves => exact ⟨st, h1, by rw [hv]; exact .inr ⟨_, rfl⟩⟩
  | sits _ _ _ h => obtain ⟨rfl, hw⟩ := sits_end h; exact ⟨st, h1, by rw [hv]; exact hw⟩

/-- **if a startup file fails nothing that was asked for is done**, and the code is 0 again -/
theorem startup_wrong {W : World α σ} {start c u s c0 u0} (h : Does W .batch start c u s c0 u0) (hs : s = .exc ∨ s = .eof) (as : List (List Char))
    (typed : List (Job α)) : ∃ st, main W start as typed c u = .code 0 st ∧ st.user = W.detach (W.clear u0) :=
  session_runs (.dead h hs)

/-- **an empty file ends the session** when it is run with `<` or `get` at the prompt: the lines behind are never read -/
theorem empty_file_ends_wrong (W : World α σ) (js : List (Job α)) (c : List Char) (u : σ) :
    (∃ st, prompt W (.hollow .run :: js) ⟨.interactive, c, u⟩ = .code 0 st ∧ st.user = W.detach (W.clear (W.tidy u))) ∧
    ∃ st, prompt W (.hollow .get :: js) ⟨.interactive, c, u⟩ = .code 0 st ∧ st.user = W.detach (W.clear (W.tidy (W.clear u))) :=
  ⟨typed_runs (.gone .noTitle), typed_runs (.gone .noTitleGet)⟩

/-- **after a file that fails the next one is looked for in its directory** -/
theorem next_file_wrong {W : World α σ} {d j c u c' u'} {f g : List Char} (hf : Bare f) (hg : Bare g) (hj : W.job (.incl f) c = .file (.rel d) j)
    (h : Does W .batch j d u .exc c' u') (hc : c' = d) {n c'' u''} (h2 : Asked W [.incl g] d (W.tidy u') n c'' u'') :
    ∃ m, cmdline W [f, g] ⟨.batch, c, u⟩ = (overOf true n, ⟨m, c'', u''⟩) := by
  subst hc
  obtain ⟨m, hm, -⟩ := args_run (W := W) (.file hf (.fileLast hg)) (.bad (s := .exc) (by rw [hj]; exact .relX h (by simp) (by simp)) (.inl rfl) h2)
  exact ⟨m, hm⟩

/-! ## Interrupts -/

/-- no file that is run by `<` -/
def NoRun : Job α → Prop
  | .seq a b => NoRun a ∧ NoRun b
  | .file .run _ => False
  | .file _ j => NoRun j
  | _ => True

/-- the same line without `quit` and `end` -/
def unquit : Job α → Job α
  | .quit => .nop
  | .fin => .nop
  | .seq a b => .seq (unquit a) (unquit b)
  | .file h j => .file h (unquit j)
  | j => j

theorem mode_preset {h : How} (hh : h ≠ .run) : h.mode .preset = .preset := by cases h <;> simp_all [How.mode]

/-- in mode preset `quit` and `end` are nothing and no analysis is run -/
theorem preset_line (W : World α σ) (f : α → σ → σ) : ∀ (j : Job α), NoRun j → ∀ st : St σ, st.mode = .preset →
    exec { W with sweeps := f } (unquit j) st = exec W j st ∧ ∀ n, (exec W j st).1 ≠ .exit n
  | .nop, _, st, _ => by simp [exec, unquit]
  | .act a, _, st, _ => by
    simp only [exec, unquit, true_and]
    rcases W.does a st.cwd st.user with ⟨_ | _ | _, u⟩ <;> simp
  | .ana a, _, st, h => by simp [exec, unquit, doAna, h]
  | .quit, _, st, h => by simp [exec, unquit, doQuit, h]
  | .fin, _, st, h => by simp [exec, unquit, doEnd, h]
  | .intr, _, st, h => by simp [exec, unquit, doIntr, h]
  | .seq a b, hr, st, h => by
    have ha := preset_line W f a hr.1 st h
    simp only [exec, unquit]
    rw [ha.1]
    rcases hx : exec W a st with ⟨s, st'⟩
    cases s
    · have hm : st'.mode = .preset := by
        have := mode_kept W a st (by rw [hx]; simp) (by rw [hx]; simp)
        rw [hx] at this; exact this.trans h
      exact preset_line W f b hr.2 st' hm
    all_goals (have := ha.2; rw [hx] at this; exact ⟨rfl, this⟩)
  | .file hw j, hr, st, h => by
    have hne : hw ≠ .run := by rintro rfl; exact hr
    have hj : NoRun j := by cases hw <;> first | exact hr.elim | exact hr
    have := preset_line W f j hj { mode := hw.mode st.mode, cwd := hw.dir st.cwd, user := if hw = .get then W.clear st.user else st.user }
      (by rw [h]; exact mode_preset hne)
    simp only [exec, unquit]
    rw [this.1]
    refine ⟨rfl, ?_⟩
    have h2 := this.2
    generalize exec W j _ = r at h2 ⊢
    rcases r with ⟨s, st'⟩
    cases s <;> simp_all [leave]
  | .hollow hw, _, st, _ => by cases hw <;> simp [exec, unquit, doHollow]

/-- **an interrupt while `get` or `merge` reads a file: from then on `quit` and `end` do nothing and no analysis is run**, whatever is typed (but `<`) -/
theorem interrupt_wrong (W : World α σ) (f : α → σ → σ) : ∀ (js : List (Job α)), (∀ j ∈ js, NoRun j) → (∀ j ∈ js, Calm j) → ∀ st : St σ, st.mode = .preset →
    prompt { W with sweeps := f } (js.map unquit) st = prompt W js st ∧ ∃ w, prompt W js st = close W w
  | [], _, _, st, _ => ⟨rfl, _, rfl⟩
  | j :: js, h, hc, st, hm => by
    have hj := preset_line W f j (h j (by simp)) st hm
    have hr := interrupt_wrong W f js (fun j hj => h j (by simp [hj])) (fun j hj => hc j (by simp [hj]))
    have hk := mode_kept W j st hj.2
    obtain ⟨s0, c0, u0, h0⟩ := does_total W j (hc j (by simp)) st.mode st.cwd st.user
    obtain ⟨m0, h1, -, hnj, -⟩ := does_exec h0
    have h1' : exec W j st = (s0, ⟨m0, c0, u0⟩) := h1
    simp only [List.map_cons, prompt]
    rw [hj.1]
    rw [h1'] at hk hj ⊢
    cases s0 with
    | ok => exact hr _ ((hk (by simp)).trans hm)
    | exc => exact hr _ ((hk (by simp)).trans hm)
    | eof => exact ⟨rfl, _, rfl⟩
    | exit n => exact absurd rfl (hj.2 n)
    | jump => exact absurd rfl hnj

/-- how that comes about: any line but the last of a file read with `get` -/
theorem interrupt_get (W : World α σ) {a : Job α} {c u c' u'} (h : Does W .preset a c (W.clear u) .ok c' u') (b : Job α) (js : List (Job α)) :
    prompt W (.file .get (.seq a (.seq .intr b)) :: js) ⟨.interactive, c, u⟩ = prompt W js ⟨.preset, c', W.tidy u'⟩ := by
  obtain ⟨m, h1, k, -⟩ := does_exec h; obtain rfl := k (by simp)
  simp [prompt, exec, How.mode, How.dir, h1, doIntr, leave, finish]

/-- **an interrupt while `<` reads a file: `end` then no longer ends the session** -/
theorem interrupt_run_wrong (W : World α σ) {a : Job α} {c u c' u'} (h : Does W .script a c u .ok c' u') (b : Job α) (js : List (Job α)) :
    prompt W (.file .run (.seq a (.seq .intr b)) :: .fin :: js) ⟨.interactive, c, u⟩ = prompt W js ⟨.script, c', W.tidy (W.tidy u')⟩ := by
  obtain ⟨m, h1, k, -⟩ := does_exec h; obtain rfl := k (by simp)
  simp [prompt, exec, How.mode, How.dir, h1, doIntr, leave, finish, doEnd]

/-- interrupts only where the mode is that of the prompt -/
def Plain : Job α → Prop
  | .seq a b => Plain a ∧ Plain b
  | .file .incl j => Plain j
  | .file (.rel _) j => Plain j
  | .file _ j => Calm j
  | _ => True

theorem plain_mode (W : World α σ) : ∀ (j : Job α), Plain j → ∀ st : St σ, (∀ n, (exec W j st).1 ≠ .exit n) → (exec W j st).2.mode = st.mode
  | .nop, _, st => by simp [exec]
  | .act a, _, st => by simp [exec]
  | .ana a, _, st => by simp [exec, doAna]
  | .quit, _, st => by rcases st with ⟨_ | _ | _ | _, c, u⟩ <;> simp [exec, doQuit]
  | .fin, _, st => by rcases st with ⟨_ | _ | _ | _, c, u⟩ <;> simp [exec, doEnd, doQuit]
  | .intr, _, st => by rcases st with ⟨_ | _ | _ | _, c, u⟩ <;> simp [exec, doIntr]
  | .seq a b, hp, st => by
    have ha := plain_mode W a hp.1 st
    simp only [exec]
    rcases h : exec W a st with ⟨s, st'⟩
    rw [h] at ha
    cases s
    · intro h1; rw [plain_mode W b hp.2 st' h1]; exact ha (by simp)
    all_goals intro h1; exact ha h1
  | .file h j, hp, st => by
    have calm : Calm j → ∀ s0 : St σ, (exec W j s0).1 ≠ .jump := by
      intro hc s0
      obtain ⟨s, c', u', h0⟩ := does_total W j hc s0.mode s0.cwd s0.user
      obtain ⟨m, h1, -, hj, -⟩ := does_exec h0
      have h1' : exec W j s0 = (s, ⟨m, c', u'⟩) := h1
      rw [h1']; exact hj
    simp only [exec]
    cases h with
    | run => have := calm hp; rcases hx : exec W j _ with ⟨s, st'⟩; cases s <;> simp [leave]; exact (this _ (by rw [hx])).elim
    | get => have := calm hp; rcases hx : exec W j _ with ⟨s, st'⟩; cases s <;> simp [leave]; exact (this _ (by rw [hx])).elim
    | merge => have := calm hp; rcases hx : exec W j _ with ⟨s, st'⟩; cases s <;> simp [leave]; exact (this _ (by rw [hx])).elim
    | incl =>
      have := plain_mode W j hp { mode := st.mode, cwd := st.cwd, user := st.user }
      simp only [How.mode, How.dir] at *
      rcases hx : exec W j _ with ⟨s, st'⟩
      cases s <;> simp_all [leave]
    | rel d =>
      have := plain_mode W j hp { mode := st.mode, cwd := d, user := st.user }
      simp only [How.mode, How.dir] at *
      rcases hx : exec W j _ with ⟨s, st'⟩
      cases s <;> simp_all [leave]
  | .hollow h, _, st => by cases h <;> simp [exec, doHollow]

/-- an interrupt anywhere else leaves the prompt as it was: the line is given up, the others are read in mode interactive -/
theorem interrupt_line (W : World α σ) (j : Job α) (hp : Plain j) (c : List Char) (u : σ) (js : List (Job α))
    (hi : (exec W j ⟨.interactive, c, u⟩).1 = .jump) :
    ∃ c' u', prompt W (j :: js) ⟨.interactive, c, u⟩ = prompt W js ⟨.interactive, c', W.tidy u'⟩ := by
  have := plain_mode W j hp ⟨.interactive, c, u⟩ (by rw [hi]; simp)
  rcases hx : exec W j ⟨.interactive, c, u⟩ with ⟨s, m, c', u'⟩
  rw [hx] at this hi
  obtain rfl : m = .interactive := this
  obtain rfl : s = .jump := hi
  exact ⟨c', u', by rw [prompt, hx]; rfl⟩

/-- **an interrupt of `gnucap -b file` ends it with code 0 and with the circuit not cleared; of `gnucap -c command` with code 1** -/
theorem interrupt_code_wrong (W : World α σ) (f t : List Char) (c : List Char) (u : σ) (b : Job α) (typed : List (Job α))
    (hf : W.job (.run f) c = .file .run (.seq .intr b)) (ht : W.job (.text t) c = .intr) :
    main W .nop [['-', 'b'], f] typed c u = .code 0 ⟨.script, c, W.tidy u⟩ ∧
    main W .nop [['-', 'c'], t] typed c u = .code 1 ⟨.batch, c, u⟩ := by
  have ob : isOpt 'c' ['-', 'b'] = false ∧ isOpt 'i' ['-', 'b'] = false ∧ isOpt 'b' ['-', 'b'] = true ∧ isOpt 'c' ['-', 'c'] = true ∧
    ['-', '-'].isPrefixOf ['-', 'b'] = false ∧ ['-', '-'].isPrefixOf ['-', 'c'] = false := by decide +kernel
  obtain ⟨h1, h2, h3, h4, h5, h6⟩ := ob
  constructor
  · rw [main, exec]; dsimp only
    rw [cmdline, if_neg (by rw [h5]; simp), if_neg (by rw [h1]; simp), if_neg (by rw [h2]; simp), if_pos h3]
    simp [ask, hf, exec, How.mode, How.dir, doIntr, leave, finish]
  · rw [main, exec]; dsimp only
    rw [cmdline, if_neg (by rw [h6]; simp), if_pos h4]
    simp [ask, ht, exec, doIntr]

/-! ## Cases -/

/-- a small world: action 0 fails, the others are noted; a file `bad` of a directory fails -/
def small : World ℕ (List ℕ) where
  does a _ u := if a = 0 then (.exc, u) else (.done, u ++ [a])
  sets a u := (true, u ++ [a])
  sweeps a u := u ++ [50 + a]
  clear _ := []
  tidy u := u ++ [90]
  detach u := u ++ [100]
  job r c := match r with
    | .text t => .act t.length
    | .incl f => if f = ['b', 'a', 'd'] then .file (.rel ['d']) (.seq (.act 3) (.act 0)) else .act (if c = ['d'] then 8 else 7)
    | .run _ => .file .run (.seq .intr .nop)
    | .load _ => .nop

example : (∀ j ∈ [Job.act 3, .act 0, .seq (.ana 4) (.file .get (.ana 5)), .fin, .act (6 : ℕ)], Calm j) ∧
    prompt small [.act 3, .act 0, .seq (.ana 4) (.file .get (.ana 5)), .act 1, .fin, .act 6] ⟨.interactive, [], []⟩ = .code 0 ⟨.interactive, [], []⟩ ∧
    prompt small [.act 3, .act 0, .seq (.ana 4) (.file .merge (.ana 5)), .act 1] ⟨.interactive, [], []⟩ = .code 0 ⟨.interactive, [], [100]⟩ :=
  ⟨by simp [Calm], by decide +kernel, by decide +kernel⟩

/-- `line_runs`, `mode_kept`: an analysis in a file read with `<` is run, in one read with `get` it is not -/
example : exec small (.file .run (.ana 4)) ⟨.interactive, [], []⟩ = (.ok, ⟨.interactive, [], [4, 54]⟩) ∧
    exec small (.file .get (.seq (.ana 4) .quit)) ⟨.interactive, [], [1]⟩ = (.ok, ⟨.interactive, [], [4]⟩) ∧
    exec small (.file .run (.seq (.act 0) (.ana 4))) ⟨.interactive, [], []⟩ = (.exc, ⟨.interactive, [], []⟩) := by decide +kernel

example : Does small .interactive (.file .run (.ana 4)) [] [] .ok [] [4, 54] :=
  (line_runs small (.file .run (.ana 4)) trivial _ _ _ _ _ _).mpr ⟨.interactive, by decide +kernel⟩

/-- `dir_kept`: a file of another directory -/
example : Does small .batch (.file (.rel ['d']) (.act 3)) ['x'] [] .ok ['x'] [3] := .rel (.done rfl) (.inl rfl)

/-- `typed_runs`: the second line fails, the third is run -/
example : Sits small [.act 0, .ana 4, .quit, .act 9] [] [] 0 [] ∧ Sits small [.act 0, .act 4] [] [] 0 [100] :=
  ⟨.exc (.fails rfl) (.ok (.runs (by simp) rfl) (.quit (.quits (by simp)))), .exc (.fails rfl) (.ok (.done rfl) .eof)⟩

theorem bare_ab : Bare ['a', 'b'] ∧ Bare ['b', 'a', 'd'] ∧ Bare ['-', 'x'] := by simp [Bare]

/-- `args_run`: `gnucap -c xx bad --yyy ab` runs all of it and leaves; `gnucap ab -c xx` asks; `gnucap -c` asks; `-x` is taken for a file -/
example : Reads [['-', 'c'], ['x', 'x'], ['b', 'a', 'd'], ['-', '-', 'y', 'y', 'y'], ['a', 'b']] [.text ['x', 'x'], .incl ['b', 'a', 'd'], .text ['y', 'y', 'y'],
      .incl ['a', 'b']] true ∧ Reads [['a', 'b'], ['-', 'c'], ['x', 'x']] [.incl ['a', 'b'], .text ['x', 'x']] false ∧ Reads [['-', 'c']] [] false ∧
    Reads [['-', 'x']] [.incl ['-', 'x']] true ∧
    cmdline small [['-', 'c'], ['x', 'x'], ['b', 'a', 'd'], ['-', '-', 'y', 'y', 'y'], ['a', 'b']] ⟨.batch, [], []⟩ =
      (.leaves, ⟨.batch, ['d'], [2, 3, 90, 3, 8]⟩) :=
  ⟨.cmd (.inl rfl) (.file bare_ab.2.1 (.long (.fileLast bare_ab.1))), .file bare_ab.1 (.cmd (.inl rfl) .none), .cut (by simp), .fileLast bare_ab.2.2,
    by decide +kernel⟩

/-- `session_runs`, `code_zero_wrong`: everything fails, the code is 0 -/
example : main small .nop [['-', '-'], ['b', 'a', 'd']] [] [] [] = .code 0 ⟨.batch, ['d'], [100]⟩ ∧
    main small .nop [['-', '-']] [.act 0, .act 0, .quit] [] [] = .code 0 ⟨.interactive, [], []⟩ := by decide +kernel

/-- `startup_wrong` -/
example : Does small .batch (.act 0) [] [] .exc [] [] ∧ main small (.act 0) [['-', 'c'], ['x', 'x']] [.act 5] [] [] = .code 0 ⟨.batch, [], [100]⟩ :=
  ⟨.fails rfl, by decide +kernel⟩

/-- `empty_file_ends_wrong` -/
example : prompt small [.act 2, .hollow .run, .act 3] ⟨.interactive, [], []⟩ = .code 0 ⟨.interactive, [], [100]⟩ ∧
    exec small (.seq (.act 2) (.seq (.hollow .run) (.act 3))) ⟨.interactive, [], []⟩ = (.eof, ⟨.interactive, [], [2]⟩) := by decide +kernel

/-- `next_file_wrong`: the second file is read in directory d (action 8), alone it is read in the one of the start (action 7) -/
example : small.job (.incl ['b', 'a', 'd']) [] = .file (.rel ['d']) (.seq (.act 3) (.act 0)) ∧
    Does small .batch (.seq (.act 3) (.act 0)) ['d'] [] .exc ['d'] [3] ∧
    cmdline small [['b', 'a', 'd'], ['a', 'b']] ⟨.batch, [], []⟩ = (.leaves, ⟨.batch, ['d'], [3, 90, 8]⟩) ∧
    cmdline small [['a', 'b']] ⟨.batch, [], []⟩ = (.leaves, ⟨.batch, [], [7]⟩) :=
  ⟨rfl, .first (.done rfl) (.fails rfl), by decide +kernel, by decide +kernel⟩

/-- `interrupt_wrong`: after the interrupt neither `quit` nor `end` nor an analysis do anything; without it they do -/
example : prompt small [.file .get (.seq (.act 2) (.seq .intr (.act 3))), .ana 4, .quit, .fin] ⟨.interactive, [], []⟩ = .code 0 ⟨.preset, [], [100]⟩ ∧
    (∀ j ∈ [Job.ana 4, .quit, .fin, (.act (5 : ℕ))], NoRun j ∧ Calm j) ∧
    exec small (.ana 4) ⟨.preset, [], []⟩ = (.ok, ⟨.preset, [], [4]⟩) ∧ exec small .quit ⟨.preset, [], [1]⟩ = (.ok, ⟨.preset, [], [1]⟩) :=
  ⟨by decide +kernel, by simp [NoRun, Calm], by decide +kernel, by decide +kernel⟩

/-- `interrupt_run_wrong`: `end` does not end it -/
example : Does small .script (.act 2) [] [] .ok [] [2] ∧
    prompt small [.file .run (.seq (.act 2) (.seq .intr .nop)), .fin, .act 6] ⟨.interactive, [], []⟩ = .code 0 ⟨.script, [], [100]⟩ ∧
    exec small .fin ⟨.interactive, [], [1]⟩ = (.exit 0, ⟨.interactive, [], []⟩) := ⟨.done rfl, by decide +kernel, by decide +kernel⟩

/-- `interrupt_line`: an interrupt of a command typed -/
example : Plain (.seq (.act 2) (.seq .intr (.file .get (.act (3 : ℕ))))) ∧
    (exec small (.seq (.act 2) (.seq .intr (.file .get (.act (3 : ℕ))))) ⟨.interactive, [], []⟩).1 = .jump := ⟨by simp [Plain, Calm], by decide +kernel⟩

/-- `interrupt_code_wrong` -/
example : small.job (.run ['f']) [] = .file .run (.seq .intr .nop) ∧
    main { small with job := fun r c => match r with | .text _ => .intr | _ => small.job r c } .nop [['-', 'c'], ['t']] [] [] [] = .code 1 ⟨.batch, [], []⟩ ∧
    main small .nop [['-', 'b'], ['f']] [] [] [5] = .code 0 ⟨.script, [], [5, 90]⟩ := ⟨rfl, by decide +kernel, by decide +kernel⟩

end Gnucap.Sess
