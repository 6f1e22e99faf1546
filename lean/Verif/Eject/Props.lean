import Verif.Eject.Lemmas
import Verif.Eject.Shipped
import Verif.Cli.Props

/-!
# Properties of ejected algorithms (C125)
-/

namespace Verif
namespace Serial
namespace Eject
open Cli
variable {ι R δ : Type} [LinearOrder ι]

/-- the outcome of the command depends on the selected model only -/
theorem executes_same {m0 : δ} {fuel : Nat} {env : Env ι R δ} {out name : String} {save : Option String}
    {c : ModelClass ι R δ} (h1 : Selects env ⟨some out, none, save⟩ c (.file out))
    (h2 : Selects env ⟨none, some name, save⟩ c (.name name)) (x : Except PyErr (Report ι δ)) :
    Executes m0 fuel env ⟨some out, none, save⟩ x ↔ ∃ y, Executes m0 fuel env ⟨none, some name, save⟩ y ∧
      SameOutcome y x ∧ ∀ r, x = .ok r → r.algorithm = .file out := by
  replace h1 := (selects_iff _ _ _ _).2 h1
  replace h2 := (selects_iff _ _ _ _).2 h2
  constructor
  · intro h
    cases h with
    | noModel e h => rw [h1] at h; cases h
    | noData c' e h hd => exact ⟨_, .noData _ e h2 hd, .error e, fun _ h => nomatch h⟩
    | noEdges c' n e m h hd hs => exact ⟨_, .noEdges _ n e m h2 hd hs, .error e, fun _ h => nomatch h⟩
    | stepFailed c' n m e m' h hd hs hr =>
      rw [h1] at h
      cases h
      exact ⟨_, .stepFailed _ n m e m' h2 hd hs hr, .error e, fun _ h => nomatch h⟩
    | done c' n m m' h hd hs hr =>
      rw [h1] at h
      cases h
      refine ⟨_, .done _ n m m' h2 hd hs hr, ?_⟩
      unfold report
      split
      · exact ⟨.error _, fun _ h => nomatch h⟩
      · split
        · exact ⟨.error _, fun _ h => nomatch h⟩
        · exact ⟨.ok _ _ rfl rfl rfl rfl rfl, fun r h => by cases h; rfl⟩
  · rintro ⟨y, h, hs, hr⟩
    cases h with
    | noModel e h => rw [h2] at h; cases h
    | noData c' e h hd => cases hs; exact .noData _ e h1 hd
    | noEdges c' n e m h hd hst => cases hs; exact .noEdges _ n e m h1 hd hst
    | stepFailed c' n m e m' h hd hst hrun =>
      rw [h2] at h
      cases h
      cases hs
      exact .stepFailed _ n m e m' h1 hd hst hrun
    | done c' n m m' h hd hst hrun =>
      rw [h2] at h
      cases h
      have h3 := Executes.done (m0 := m0) (fuel := fuel) (o := ⟨some out, none, save⟩) _ n m m' h1 hd hst hrun
      have : x = report ⟨some out, none, save⟩ (.file out) m' := by
        revert hs
        unfold report
        split
        · intro hs; cases hs; rfl
        · split
          · intro hs; cases hs; rfl
          · intro hs
            cases hs with
            | ok r r' a1 a2 a3 a4 a5 =>
              obtain ⟨p, al, no, ed, hi, sa⟩ := r'
              have := hr _ rfl
              simp only at this a1 a2 a3 a4 a5
              subst this a1 a2 a3 a4 a5
              rfl
      rw [this]
      exact h3

/-- **C125 (file).** `causy eject` writes the algorithm the model runs, under the given name, and the choice `EJECT` in a
workspace the algorithm the model was made from; nothing else changes.  For an unknown algorithm both raise `KeyError`. -/
theorem C125_file (w : World) (name out : String) :
    (w.available name = none → eject w name out = .error .keyError ∧ workspaceEject w name out = .error .keyError) ∧
    (∀ m, w.available name = some m → ∃ w1 w2, eject w name out = .ok w1 ∧ workspaceEject w name out = .ok w2 ∧
      w1.files out = some { m.algorithm with name := name }.dump ∧ w2.files out = some m.original.dump ∧
      (∀ p, p ≠ out → w1.files p = w.files p ∧ w2.files p = w.files p) ∧
      w1.available = w.available ∧ w2.available = w.available ∧ w1.classes = w.classes ∧ w2.classes = w.classes) := by
  constructor
  · intro h
    unfold eject workspaceEject
    rw [h]
    exact ⟨rfl, rfl⟩
  · intro m h
    have h1 : eject w name out = .ok (w.write out { m.algorithm with name := name }.dump) := by unfold eject; rw [h]
    have h2 : workspaceEject w name out = .ok (w.write out m.original.dump) := by unfold workspaceEject; rw [h]
    exact ⟨_, _, h1, h2, if_pos rfl, if_pos rfl, fun p hp => ⟨if_neg hp, if_neg hp⟩, rfl, rfl, rfl, rfl⟩

/-- **C125 (variables, `causy eject`).** In a file written by `causy eject` no step refers to a variable any more.  If the
file can be used at all, changing the values of its variables, or removing them, has no effect: the model made from the file
has the steps of the model it was ejected from. -/
theorem C125_values_frozen (w w' : World) (name out : String) (m : Model) (hm : w.available name = some m)
    (hf : factory m.original = .ok m) (hv : PlainValues m.original.vars) (hne : m.original.vars ≠ [])
    (h : eject w name out = .ok w') :
    ∃ f, w'.files out = some f ∧ f.steps = dumpSteps m.algorithm.steps ∧ f.vars = m.original.vars ∧
      (∀ s ∈ m.algorithm.steps, ∀ n, ¬ StepHolds (.ref n) s) ∧
      (m.original.edgeTypes = [] → Survives w.classes m.algorithm.steps → ∀ vars, ∃ m',
        loadModel (w'.write out { f with vars := vars }) out = .ok m' ∧ m'.algorithm.steps = m.algorithm.steps) := by
  unfold eject at h
  rw [hm] at h
  cases h
  obtain ⟨f1, f2, f3, f4, f5, f6⟩ := factory_ok hf
  have hno := steps_plain hv (f6 hne)
  refine ⟨_, if_pos rfl, rfl, f2, hno, ?_⟩
  intro he hs vars
  rw [loadModel_write]
  change ∃ m', (load w.classes _ >>= factory) = _ ∧ _
  rw [load_kept (a := { m.algorithm with name := name }) hs (f3.trans he)]
  change ∃ m', factory _ = _ ∧ _
  unfold factory resolveAll
  simp only
  have : (if vars = [] then Except.ok m.algorithm.steps else resolveSteps vars m.algorithm.steps) =
      .ok m.algorithm.steps := by
    rw [steps_self vars hno]
    simp
  rw [this, f3, he]
  exact ⟨_, rfl, rfl⟩

/-- **C125 (variables, workspace).** A file ejected in a workspace keeps the references: with changed values of the variables
it gives the model that the algorithm gives with these values. -/
theorem C125_values_live (w w' : World) (name out : String) (m : Model) (hm : w.available name = some m)
    (he : m.original.edgeTypes = []) (hs : Survives w.classes m.original.steps) (h : workspaceEject w name out = .ok w') :
    ∃ f, w'.files out = some f ∧ f.vars = m.original.vars ∧
      ∀ vars, loadModel (w'.write out { f with vars := vars }) out = factory { m.original with vars := vars } := by
  unfold workspaceEject at h
  rw [hm] at h
  cases h
  refine ⟨_, if_pos rfl, rfl, ?_⟩
  intro vars
  rw [loadModel_write]
  change (load w.classes _ >>= factory) = _
  rw [load_kept (a := m.original) hs he]
  rfl

/-- **C125 (partial).** For an algorithm without edge types whose steps survive dumping and loading (C57), executing the
ejected file is executing the algorithm: the same outcomes are possible, and they differ only in the reference to the file. -/
theorem C125_same_partial (w w' : World) (name out : String) (m : Model) (hm : w.available name = some m)
    (hf : factory m.original = .ok m) (hv : PlainValues m.original.vars) (he : m.original.edgeTypes = [])
    (hs : Survives w.classes m.algorithm.steps) (hn : name ≠ "") (ho : out ≠ "") (h : eject w name out = .ok w')
    (run : List Step → ModelClass ι R δ) (document : Except PyErr (Data.Json ι R)) (m0 : δ) (fuel : Nat)
    (save : Option String) (x : Except PyErr (Report ι δ)) :
    Executes m0 fuel (w'.cli run document) ⟨some out, none, save⟩ x ↔
      ∃ y, Executes m0 fuel (w'.cli run document) ⟨none, some name, save⟩ y ∧ SameOutcome y x ∧
        ∀ r, x = .ok r → r.algorithm = .file out := by
  unfold eject at h
  rw [hm] at h
  cases h
  obtain ⟨f1, f2, f3, f4, f5, f6⟩ := factory_ok hf
  have hl : ∃ m', loadModel (w.write out { m.algorithm with name := name }.dump) out = .ok m' ∧
      m'.algorithm.steps = m.algorithm.steps := by
    rw [loadModel_write]
    have := load_kept (a := { m.algorithm with name := name }) hs (f3.trans he) m.algorithm.vars
    change load w.classes { m.algorithm with name := name }.dump = _ at this
    rw [this]
    change ∃ m', factory _ = _ ∧ _
    unfold factory resolveAll
    simp only
    have : (if m.algorithm.vars = [] then Except.ok m.algorithm.steps else
        resolveSteps m.algorithm.vars m.algorithm.steps) = .ok m.algorithm.steps := by
      by_cases hne : m.algorithm.vars = []
      · rw [if_pos hne]
      · rw [if_neg hne, steps_self _ (steps_plain hv (f6 (fun h => hne (f2.trans h))))]
    rw [this, f3, he]
    exact ⟨_, rfl, rfl⟩
  obtain ⟨m', hl, hst⟩ := hl
  refine executes_same (c := run m.algorithm.steps) (.file out _ rfl ho ?_) (.name name _ (.inl rfl) rfl hn ?_) x
  · rw [cli_load, hl, ← hst]
  · change (w.available name).map _ = _
    rw [hm]
    rfl

/-- **C125 (negation).** An ejected file of an algorithm with an edge type, or with a step (also inside a loop) of a class with
an enumeration setting, cannot be used: making a model from it raises, whatever values the variables are given. -/
theorem C125_no_model (w w' : World) (name out : String) (m : Model) (hm : w.available name = some m)
    (hf : factory m.original = .ok m)
    (hbad : m.original.edgeTypes ≠ [] ∨
      ∃ cls, EnumDefault w.classes cls ∧ ∃ s ∈ m.original.steps, HasClass cls s)
    (h : eject w name out = .ok w' ∨ workspaceEject w name out = .ok w') :
    ∃ f, w'.files out = some f ∧ ∀ vars, ∃ e, loadModel (w'.write out { f with vars := vars }) out = .error e := by
  obtain ⟨f1, f2, f3, f4, f5, f6⟩ := factory_ok hf
  rcases h with h | h
  · unfold eject at h
    rw [hm] at h
    cases h
    refine ⟨_, if_pos rfl, fun vars => ?_⟩
    refine loadModel_fails (a := m.algorithm) name vars ?_
    rcases hbad with hb | ⟨cls, h1, h2⟩
    · exact .inl (fun h => hb (f3.symm.trans h))
    · refine .inr ⟨cls, h1, ?_⟩
      by_cases hne : m.original.vars = []
      · rw [f5 hne]; exact h2
      · exact steps_class (f6 hne) h2
  · unfold workspaceEject at h
    rw [hm] at h
    cases h
    exact ⟨_, if_pos rfl, fun vars => loadModel_fails (a := m.original) m.original.name vars hbad⟩

/-- the models of the shipped algorithms, and no pipeline files -/
def shipped : World where
  classes := repoClass
  available := fun n => if n = "PC" then (factory pc).toOption else if n = "ParallelPC" then (factory parallelPc).toOption
    else none
  files := fun _ => none

theorem factory_pc : ∃ m, factory pc = .ok m := ⟨_, rfl⟩
theorem factory_parallelPc : ∃ m, factory parallelPc = .ok m := ⟨_, rfl⟩

/-- **C125 (shipped algorithms).** `causy eject` succeeds for both shipped algorithms, and so does the choice `EJECT` in a
workspace.  But `causy execute --pipeline` with the file raises, whatever the data, and in a workspace no model can be made
from the file, whatever values the variables are given. -/
theorem C125_shipped_fail (name out : String) (hn : name = "PC" ∨ name = "ParallelPC") (ho : out ≠ "") :
    ∃ w1 w2 f, eject shipped name out = .ok w1 ∧ workspaceEject shipped name out = .ok w2 ∧
      (∃ e, ∀ (run : List Step → ModelClass ι R δ) (document : Except PyErr (Data.Json ι R)) (m0 : δ)
        (fuel : Nat) (other save : Option String) (x : Except PyErr (Report ι δ)),
        Executes m0 fuel (w1.cli run document) ⟨some out, other, save⟩ x ↔ x = .error e) ∧
      w2.files out = some f ∧ ∀ vars, ∃ e, loadModel (w2.write out { f with vars := vars }) out = .error e := by
  have key : ∃ a m, factory a = .ok m ∧ shipped.available name = some m ∧ a.edgeTypes ≠ [] := by
    rcases hn with rfl | rfl
    · obtain ⟨m, h⟩ := factory_pc
      refine ⟨pc, m, h, ?_, List.cons_ne_nil _ _⟩
      simp only [shipped, if_true, h]
      rfl
    · obtain ⟨m, h⟩ := factory_parallelPc
      refine ⟨parallelPc, m, h, ?_, List.cons_ne_nil _ _⟩
      have : ("ParallelPC" : String) ≠ "PC" := by decide
      simp only [shipped, if_neg this, if_true, h]
      rfl
  obtain ⟨a, m, hf, hm, he⟩ := key
  obtain ⟨f1, -⟩ := factory_ok hf
  subst f1
  obtain ⟨w1, w2, h1, h2, -⟩ := (C125_file shipped name out).2 m hm
  have same : ∀ (w : World) f, w.files out = some f → w.write out { f with vars := f.vars } = w := by
    intro w f hw
    obtain ⟨c, a, fs⟩ := w
    simp only [World.write, World.mk.injEq, true_and]
    funext p
    by_cases hp : p = out
    · subst hp; rw [if_pos rfl]; exact hw.symm
    · rw [if_neg hp]
  obtain ⟨f, g1, g2⟩ := C125_no_model shipped w1 name out m hm hf (.inl he) (.inl h1)
  obtain ⟨e, g3⟩ := g2 f.vars
  rw [same w1 f g1] at g3
  obtain ⟨f', k1, k2⟩ := C125_no_model shipped w2 name out m hm hf (.inl he) (.inr h2)
  refine ⟨w1, w2, f', h1, h2, ⟨e, fun run document m0 fuel other save x => ?_⟩, k1, k2⟩
  exact (C112_choice m0 fuel _ ⟨some out, other, save⟩).2.2.1 out e rfl ho (by rw [cli_load, g3]) x

/-! ## Examples -/

/-- the steps of `PC` that test for independence, without edge types -/
def testsOnly : Algo :=
  ⟨⟨"tests", [make "CalculatePearsonCorrelations" [named "Calculate Pearson Correlations"],
    make "CorrelationCoefficientTest" [threshold, named "Correlation Coefficient Test"]], []⟩, [("threshold", .float 1 20)]⟩

/-- the steps with the value of the variable -/
def testsOnlySteps : List Step :=
  [make "CalculatePearsonCorrelations" [named "Calculate Pearson Correlations"],
    make "CorrelationCoefficientTest" [("threshold", .val (.float 1 20)), named "Correlation Coefficient Test"]]

def testsWorld : World where
  classes := repoClass
  available := fun n => if n = "tests" then (factory testsOnly).toOption else none
  files := fun _ => none

theorem factory_testsOnly : factory testsOnly = .ok ⟨testsOnly, { testsOnly with steps := testsOnlySteps }⟩ := rfl

theorem testsOnly_wellFormed : (∀ s ∈ testsOnly.steps, WellFormed repoClass s) ∧
    ∀ s ∈ testsOnlySteps, WellFormed repoClass s := by
  constructor <;> intro s hs <;> simp only [testsOnly, testsOnlySteps, List.mem_cons, List.not_mem_nil, or_false] at hs <;>
    rcases hs with rfl | rfl <;> exact .simple rfl ⟨by decide +kernel, by decide +kernel⟩

/-- the hypotheses of C125 hold for an algorithm with a variable and without edge types, for both kinds of ejecting -/
example : testsWorld.available "tests" = some ⟨testsOnly, { testsOnly with steps := testsOnlySteps }⟩ ∧
    PlainValues testsOnly.vars ∧ testsOnly.vars ≠ [] ∧ testsOnly.edgeTypes = [] ∧
    Survives repoClass testsOnlySteps ∧ Survives repoClass testsOnly.steps := by
  obtain ⟨h1, h2⟩ := testsOnly_wellFormed
  have k1 := (loadSteps_dump repoClass testsOnly.steps h1).1 rfl
  have k2 := (loadSteps_dump repoClass testsOnlySteps h2).1 rfl
  refine ⟨rfl, ?_, List.cons_ne_nil _ _, rfl, fun s hs => ⟨h2 s hs, k2 s hs⟩, fun s hs => ⟨h1 s hs, k1 s hs⟩⟩
  intro p hp n
  simp only [testsOnly, List.mem_singleton] at hp
  subst hp
  exact fun h => nomatch h

/-- the classes with an enumeration setting: `ColliderTest`, which both shipped algorithms use -/
example : EnumDefault repoClass "ColliderTest" ∧ (∃ s ∈ pc.steps, HasClass "ColliderTest" s) ∧
    ∃ s ∈ parallelPc.steps, HasClass "ColliderTest" s :=
  ⟨⟨_, "conflict_resolution_strategy", "KEEP_FIRST", rfl, by decide +kernel, by decide +kernel⟩,
    ⟨make "ColliderTest" [named "Collider Test"], by simp [pc, orientationRules], .here _⟩,
    ⟨make "ColliderTest" [named "Collider Test"], by simp [parallelPc, orientationRules], .here _⟩⟩

end Eject
end Serial
end Verif
