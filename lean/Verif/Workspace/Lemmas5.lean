import Verif.Workspace.Lemmas4

/-!
# Lemmas about the execution of experiments
-/

namespace Verif
namespace Workspace
open Vars (Val Obj Algorithm)
variable {O D H R C : Type}

theorem bind_eq_ok {σ α β : Type} {m : PyM σ α} {f : α → PyM σ β} {s s' : σ} {b : β} (h : (m >>= f) s = (.ok b, s')) :
    ∃ a s1, m s = (.ok a, s1) ∧ f a s1 = (.ok b, s') := by
  rw [PyM.bind_run] at h
  split at h
  · rename_i a s1 hm; exact ⟨a, s1, hm, h⟩
  · cases h

theorem lift_eq_ok {α : Type} {x : Except PyErr α} {s s' : St O C} {a : α} : lift x s = (.ok a, s') ↔ x = .ok a ∧ s' = s := by
  cases x with
  | error e => exact ⟨(fun h => by cases h), (fun h => by cases h.1)⟩
  | ok b =>
    constructor
    · intro h; cases h; exact ⟨rfl, rfl⟩
    · rintro ⟨h1, h2⟩; cases h1; cases h2; rfl

theorem item_eq_ok {α : Type} {d : Dict String α} {k : String} {s s' : St O C} {a : α} :
    item d k s = (.ok a, s') ↔ d.get? k = some a ∧ s' = s := by
  unfold item
  cases hd : d.get? k with
  | none => exact ⟨(fun h => by cases h), (fun h => by cases h.1)⟩
  | some b =>
    constructor
    · intro h; cases h; exact ⟨rfl, rfl⟩
    · rintro ⟨h1, h2⟩; cases h1; cases h2; rfl

theorem load_run (env : Env O D H R C) (ref : PipelineRef) (s : St O C) :
    loadAlgorithm env ref s = (loadedIn env s ref, s) := by
  obtain ⟨t, r⟩ := ref
  unfold loadAlgorithm loadedIn
  cases t with
  | pythonModule => rfl
  | file => simp only [reduceCtorEq, if_false]; cases env.algorithm RefType.file r <;> rfl
  | name => simp only [reduceCtorEq, if_false]; cases env.algorithm RefType.name r <;> rfl

theorem load_eq_ok {env : Env O D H R C} {ref : PipelineRef} {s s' : St O C} {a : Algorithm} :
    loadAlgorithm env ref s = (.ok a, s') ↔ loadedIn env s ref = .ok a ∧ s' = s := by
  rw [load_run]
  constructor
  · intro h; injection h with h1 h2; exact ⟨h1, h2.symm⟩
  · rintro ⟨h1, h2⟩; rw [h1, h2]

/-- the state after a model was built -/
def afterBuild (ref : PipelineRef) (a : Algorithm) (s : St O C) : St O C :=
  if ref.type = .pythonModule then { s with modules := fun r => if r = ref.reference then .ok a else s.modules r } else s

theorem afterBuild_world (ref : PipelineRef) (a : Algorithm) (s : St O C) : (afterBuild ref a s).world = s.world := by
  unfold afterBuild; split <;> rfl

theorem build_run (ref : PipelineRef) (a : Algorithm) (v : Dict String Val) (s : St O C) :
    buildModel ref a v s = match Vars.factorySteps a (some v) with
      | .error e => (.error e, s)
      | .ok steps => (.ok ⟨a.declared, steps⟩, afterBuild ref ⟨a.declared, steps⟩ s) := by
  unfold buildModel
  rw [PyM.bind_run]
  cases hf : Vars.factorySteps a (some v) with
  | error e => rfl
  | ok steps =>
    obtain ⟨t, r⟩ := ref
    cases t <;> rfl

theorem build_eq_ok {ref : PipelineRef} {a m : Algorithm} {v : Dict String Val} {s s' : St O C} :
    buildModel ref a v s = (.ok m, s') ↔
      ∃ steps, Vars.factorySteps a (some v) = .ok steps ∧ m = ⟨a.declared, steps⟩ ∧ s' = afterBuild ref m s := by
  rw [build_run]
  cases hf : Vars.factorySteps a (some v) with
  | error e => exact ⟨(fun h => by cases h), (fun ⟨_, h, _⟩ => by cases h)⟩
  | ok steps =>
    constructor
    · intro h; cases h; exact ⟨steps, rfl, rfl, rfl⟩
    · rintro ⟨st, h1, h2, h3⟩; cases h1; subst h2; subst h3; rfl

/-- what a successful execution consists of -/
theorem execute_eq_ok {env : Env O D H R C} {w : Ws O} {x : Experiment} {s s' : St O C} {r : Result H R} :
    executeExperiment env w x s = (.ok r, s') ↔
      ∃ ref a lref d steps outcome h, w.pipelines.get? x.pipeline = some ref ∧ loadedIn env s ref = .ok a ∧
        Vars.validateVariableValues a.declared x.vars = .ok true ∧ w.dataloaders.get? x.dataloader = some lref ∧
        env.loader lref = .ok d ∧ Vars.factorySteps a (some x.vars) = .ok steps ∧ env.run steps d = .ok outcome ∧
        env.digest d = .ok h ∧ s' = afterBuild ref ⟨a.declared, steps⟩ s ∧
        r = ⟨outcome, Vars.resolveVariables a.declared x.vars,
          ⟨some (env.algHash ⟨a.declared, steps⟩), some h, some (env.varsHash (Vars.resolveVariables a.declared x.vars))⟩⟩ := by
  constructor
  · intro h
    unfold executeExperiment at h
    replace h := bind_eq_ok h
    obtain ⟨ref, s1, h1, h⟩ := h
    replace h1 := item_eq_ok.1 h1
    obtain ⟨h1, rfl⟩ := h1
    replace h := bind_eq_ok h
    obtain ⟨a, s2, h2, h⟩ := h
    replace h2 := load_eq_ok.1 h2
    obtain ⟨h2, rfl⟩ := h2
    replace h := bind_eq_ok h
    obtain ⟨b, s3, h3, h⟩ := h
    replace h3 := lift_eq_ok.1 h3
    obtain ⟨h3, rfl⟩ := h3
    replace h := bind_eq_ok h
    obtain ⟨lref, s4, h4, h⟩ := h
    replace h4 := item_eq_ok.1 h4
    obtain ⟨h4, rfl⟩ := h4
    replace h := bind_eq_ok h
    obtain ⟨d, s5, h5, h⟩ := h
    replace h5 := lift_eq_ok.1 h5
    obtain ⟨h5, rfl⟩ := h5
    replace h := bind_eq_ok h
    obtain ⟨m, s6, h6, h⟩ := h
    replace h6 := build_eq_ok.1 h6
    obtain ⟨steps, h6, rfl, rfl⟩ := h6
    replace h := bind_eq_ok h
    obtain ⟨o, s7, h7, h⟩ := h
    replace h7 := lift_eq_ok.1 h7
    obtain ⟨h7, rfl⟩ := h7
    replace h := bind_eq_ok h
    obtain ⟨hh, s8, h8, h⟩ := h
    replace h8 := lift_eq_ok.1 h8
    obtain ⟨h8, rfl⟩ := h8
    cases h
    exact ⟨ref, a, lref, d, steps, o, hh, h1, h2, Vars.validate_true h3, h4, h5, h6, h7, h8, rfl, rfl⟩
  · rintro ⟨ref, a, lref, d, steps, o, hh, h1, h2, h3, h4, h5, h6, h7, h8, rfl, rfl⟩
    unfold executeExperiment
    rw [PyM.bind_ok (item_eq_ok.2 ⟨h1, rfl⟩), PyM.bind_ok (load_eq_ok.2 ⟨h2, rfl⟩), PyM.bind_ok (lift_eq_ok.2 ⟨h3, rfl⟩),
      PyM.bind_ok (item_eq_ok.2 ⟨h4, rfl⟩), PyM.bind_ok (lift_eq_ok.2 ⟨h5, rfl⟩),
      PyM.bind_ok (build_eq_ok.2 ⟨steps, h6, rfl, rfl⟩), PyM.bind_ok (lift_eq_ok.2 ⟨h7, rfl⟩),
      PyM.bind_ok (lift_eq_ok.2 ⟨h8, rfl⟩)]
    rfl

/-- when the comparison finds no change -/
theorem changed_eq_false [DecidableEq H] {env : Env O D H R C} {w : Ws O} {x : Experiment} {stored : Hashes H} {s s' : St O C} :
    changed env w x stored s = (.ok false, s') ↔
      ∃ ref a steps, w.pipelines.get? x.pipeline = some ref ∧ loadedIn env s ref = .ok a ∧
        Vars.validateVariableValues a.declared x.vars = .ok true ∧
        Vars.factorySteps a (some (Vars.resolveVariables a.declared x.vars)) = .ok steps ∧
        s' = afterBuild ref ⟨a.declared, steps⟩ s ∧ CurrentHashes env w x a stored := by
  constructor
  · intro h
    unfold changed at h
    split at h
    · cases h
    replace h := bind_eq_ok h
    obtain ⟨ref, s1, h1, h⟩ := h
    replace h1 := item_eq_ok.1 h1
    obtain ⟨h1, rfl⟩ := h1
    replace h := bind_eq_ok h
    obtain ⟨a, s2, h2, h⟩ := h
    replace h2 := load_eq_ok.1 h2
    obtain ⟨h2, rfl⟩ := h2
    replace h := bind_eq_ok h
    obtain ⟨b, s3, h3, h⟩ := h
    replace h3 := lift_eq_ok.1 h3
    obtain ⟨h3, rfl⟩ := h3
    split at h
    · cases h
    rename_i hv
    replace h := bind_eq_ok h
    obtain ⟨m, s6, h6, h⟩ := h
    replace h6 := build_eq_ok.1 h6
    obtain ⟨steps, h6, rfl, rfl⟩ := h6
    split at h
    · cases h
    rename_i ha
    replace h := bind_eq_ok h
    obtain ⟨lref, s4, h4, h⟩ := h
    replace h4 := item_eq_ok.1 h4
    obtain ⟨h4, rfl⟩ := h4
    replace h := bind_eq_ok h
    obtain ⟨d, s5, h5, h⟩ := h
    replace h5 := lift_eq_ok.1 h5
    obtain ⟨h5, rfl⟩ := h5
    replace h := bind_eq_ok h
    obtain ⟨hh, s8, h8, h⟩ := h
    replace h8 := lift_eq_ok.1 h8
    obtain ⟨h8, rfl⟩ := h8
    split at h
    · cases h
    rename_i hd
    cases h
    refine ⟨ref, a, steps, h1, h2, Vars.validate_true h3, h6, rfl, steps, lref, d, hh, h6, h4, h5, h8, ?_⟩
    obtain ⟨x1, x2, x3⟩ := stored
    simp only [ne_eq, not_not] at hv ha hd
    subst hv; subst ha; subst hd; rfl
  · rintro ⟨ref, a, steps, h1, h2, h3, h4, rfl, steps', lref, d, hh, h5, h6, h7, h8, rfl⟩
    rw [h4] at h5
    cases h5
    unfold changed
    rw [if_neg (by simp), PyM.bind_ok (item_eq_ok.2 ⟨h1, rfl⟩), PyM.bind_ok (load_eq_ok.2 ⟨h2, rfl⟩),
      PyM.bind_ok (lift_eq_ok.2 ⟨h3, rfl⟩)]
    simp only
    rw [if_neg (by simp), PyM.bind_ok (build_eq_ok.2 ⟨steps, h4, rfl, rfl⟩), if_neg (by simp),
      PyM.bind_ok (item_eq_ok.2 ⟨h6, rfl⟩), PyM.bind_ok (lift_eq_ok.2 ⟨h7, rfl⟩), PyM.bind_ok (lift_eq_ok.2 ⟨h8, rfl⟩),
      if_neg (by simp)]
    rfl

theorem latestFile_versions {e : List Char} {d : Files C} {c : C} (h : latestFile e d = .ok c) :
    ∃ v vs, loadVersions e d.keys = .ok (v :: vs) := by
  unfold latestFile at h
  split at h
  · cases h
  · cases h
  · rename_i v vs hv; exact ⟨v, vs, hv⟩

/-- when the check finds no change -/
theorem needs_eq_false [DecidableEq H] {env : Env O D H R C} {w : Ws O} {n : String} {x : Experiment} {s s' : St O C}
    (hx : w.experiments.get? n = some x) :
    needsReexecution env w n s = (.ok false, s') ↔
      ∃ c stored, latestFile n.toList s.world.files = .ok c ∧ env.decode c = .ok stored ∧
        changed env w x stored s = (.ok false, s') := by
  unfold needsReexecution
  rw [hx]
  simp only
  constructor
  · intro h
    replace h := bind_eq_ok h
    obtain ⟨vs, s1, h1, h⟩ := h
    simp only [PyM.readE_run, Prod.mk.injEq] at h1
    obtain ⟨h1, rfl⟩ := h1
    split at h
    · cases h
    replace h := bind_eq_ok h
    obtain ⟨c, s2, h2, h⟩ := h
    simp only [PyM.readE_run, Prod.mk.injEq] at h2
    obtain ⟨h2, rfl⟩ := h2
    replace h := bind_eq_ok h
    obtain ⟨st, s3, h3, h⟩ := h
    replace h3 := lift_eq_ok.1 h3
    obtain ⟨h3, rfl⟩ := h3
    exact ⟨c, st, h2, h3, h⟩
  · rintro ⟨c, st, h2, h3, h⟩
    obtain ⟨v, vs, hv⟩ := latestFile_versions h2
    rw [PyM.bind_ok (a := v :: vs) (s' := s) (by rw [PyM.readE_run, hv]), if_neg (by simp),
      PyM.bind_ok (a := c) (s' := s) (by rw [PyM.readE_run, h2]), PyM.bind_ok (lift_eq_ok.2 ⟨h3, rfl⟩), h]

theorem catch_eq_false {m : PyM (St O C) Bool} {s s' : St O C} : catchValueError m s = (.ok false, s') ↔ m s = (.ok false, s') := by
  unfold catchValueError
  split
  · rename_i s1 h
    rw [h]
    exact ⟨(fun h => by cases h), (fun h => by cases h)⟩
  · rename_i s1 h
    rw [h]
    exact ⟨(fun h => by cases h), (fun h => by cases h)⟩
  · exact Iff.rfl

/-- when an experiment is skipped -/
theorem executeOne_false [DecidableEq H] {env : Env O D H R C} {w : Ws O} {force : Bool} {p : String × Experiment} {s s' : St O C} :
    executeOne env w force p s = (.ok false, s') ↔ force = false ∧ needsReexecution env w p.1 s = (.ok false, s') := by
  unfold executeOne
  constructor
  · intro h
    replace h := bind_eq_ok h
    obtain ⟨b, s1, h1, h⟩ := h
    split at h
    · rename_i hb
      obtain ⟨rfl, rfl⟩ := hb
      cases h
      exact ⟨rfl, catch_eq_false.1 h1⟩
    · obtain ⟨r, s2, h2, h⟩ := bind_eq_ok h
      replace h := bind_eq_ok h
      obtain ⟨u, s3, h3, h⟩ := h
      cases h
  · rintro ⟨rfl, h⟩
    rw [PyM.bind_ok (catch_eq_false.2 h), if_pos ⟨rfl, rfl⟩]
    rfl

end Workspace
end Verif
