import Verif.Workspace.Lemmas5

/-!
# Lemmas about executing all experiments, and about updating a variable
-/

namespace Verif
namespace Workspace
open Vars (Val Obj Algorithm Variable)
variable {O D H R C : Type}

/-- a computation that leaves the directory alone -/
def FrameW {α : Type} (m : PyM (St O C) α) : Prop := ∀ s, (m s).2.world = s.world

theorem frameW_bind {α β : Type} {m : PyM (St O C) α} {f : α → PyM (St O C) β} (h1 : FrameW m) (h2 : ∀ a, FrameW (f a)) :
    FrameW (m >>= f) := by
  intro s
  rw [PyM.bind_run]
  have := h1 s
  generalize hr : m s = r at this
  obtain ⟨e | a, s'⟩ := r
  · exact this
  · exact (h2 a s').trans this

theorem frameW_pure {α : Type} (a : α) : FrameW (O := O) (C := C) (Pure.pure a) := fun _ => rfl
theorem frameW_readE {α : Type} (f : St O C → Except PyErr α) : FrameW (PyM.readE f) := fun _ => rfl
theorem frameW_lift {α : Type} (x : Except PyErr α) : FrameW (O := O) (C := C) (lift x) := by
  cases x <;> exact fun _ => rfl
theorem frameW_item {α : Type} (d : Dict String α) (k : String) : FrameW (O := O) (C := C) (item d k) := by
  unfold item
  split <;> exact fun _ => rfl
theorem frameW_ite {α : Type} (c : Prop) [Decidable c] {a b : PyM (St O C) α} (ha : FrameW a) (hb : FrameW b) :
    FrameW (if c then a else b) := by
  split <;> assumption
theorem frameW_load (env : Env O D H R C) (ref : PipelineRef) : FrameW (O := O) (C := C) (loadAlgorithm env ref) := by
  intro s; rw [load_run]
theorem frameW_build (ref : PipelineRef) (a : Algorithm) (v : Dict String Val) :
    FrameW (O := O) (C := C) (buildModel ref a v) := by
  intro s
  rw [build_run]
  cases Vars.factorySteps a (some v) with
  | error e => rfl
  | ok steps => exact afterBuild_world _ _ _

theorem frameW_needs [DecidableEq H] (env : Env O D H R C) (w : Ws O) (n : String) :
    FrameW (O := O) (C := C) (catchValueError (needsReexecution env w n)) := by
  have key : FrameW (O := O) (C := C) (needsReexecution env w n) := by
    unfold needsReexecution
    split
    · exact fun _ => rfl
    · refine frameW_bind (frameW_readE _) fun _ => frameW_ite _ (frameW_pure _) (frameW_bind (frameW_readE _) fun _ =>
        frameW_bind (frameW_lift _) fun _ => ?_)
      unfold changed
      exact frameW_ite _ (frameW_pure _) (frameW_bind (frameW_item _ _) fun _ => frameW_bind (frameW_load _ _) fun _ =>
        frameW_bind (frameW_lift _) fun _ => frameW_ite _ (frameW_pure _) (frameW_bind (frameW_build _ _ _) fun _ =>
        frameW_ite _ (frameW_pure _) (frameW_bind (frameW_item _ _) fun _ => frameW_bind (frameW_lift _) fun _ =>
        frameW_bind (frameW_lift _) fun _ => frameW_ite _ (frameW_pure _) (frameW_pure _))))
  intro s
  have := key s
  unfold catchValueError
  split
  · rename_i s' hs
    rw [hs] at this
    exact this
  · rename_i s' hs
    rw [hs] at this
    exact this
  · exact this

theorem execute_world {env : Env O D H R C} {w : Ws O} {x : Experiment} {s s' : St O C} {r : Result H R}
    (h : executeExperiment env w x s = (.ok r, s')) : s'.world = s.world := by
  obtain ⟨ref, a, lref, d, steps, o, hh, -, -, -, -, -, -, -, -, rfl, -⟩ := execute_eq_ok.1 h
  exact afterBuild_world _ _ _

/-- the execution of a pipeline that is not a python module does not depend on the process -/
theorem execute_indep {env : Env O D H R C} {w : Ws O} {x : Experiment} {s s' : St O C} {r : Result H R}
    (hno : ∀ n ref, w.pipelines.get? n = some ref → ref.type ≠ .pythonModule)
    (h : executeExperiment env w x s = (.ok r, s')) (t : St O C) : ∃ t', executeExperiment env w x t = (.ok r, t') := by
  obtain ⟨ref, a, lref, d, steps, o, hh, h1, h2, h3, h4, h5, h6, h7, h8, rfl, rfl⟩ := execute_eq_ok.1 h
  refine ⟨_, execute_eq_ok.2 ⟨ref, a, lref, d, steps, o, hh, h1, ?_, h3, h4, h5, h6, h7, h8, rfl, rfl⟩⟩
  have := hno _ _ h1
  unfold loadedIn at h2 ⊢
  rw [if_neg this] at h2 ⊢
  exact h2

/-- what happens to one experiment -/
theorem executeOne_ok [DecidableEq H] {env : Env O D H R C} {w : Ws O} {force b : Bool} {p : String × Experiment} {s s' : St O C}
    (h : executeOne env w force p s = (.ok b, s')) :
    (b = false ∧ force = false ∧ s'.world = s.world) ∨
    (b = true ∧ ∃ s1 s2 r, s1.world = s.world ∧ executeExperiment env w p.2 s1 = (.ok r, s2) ∧
      s'.world = { s.world with files := saveFile p.1.toList (env.now p.1) (env.encode r) s.world.files }) := by
  unfold executeOne at h
  replace h := bind_eq_ok h
  obtain ⟨nb, s1, h1, h⟩ := h
  have hw := frameW_needs env w p.1 s
  rw [h1] at hw
  split at h
  · rename_i hb
    cases h
    exact Or.inl ⟨rfl, hb.2, hw⟩
  · replace h := bind_eq_ok h
    obtain ⟨r, s2, h2, h⟩ := h
    replace h := bind_eq_ok h
    obtain ⟨u, s3, h3, h⟩ := h
    cases h
    refine Or.inr ⟨rfl, s1, s2, r, hw, h2, ?_⟩
    have hw2 := execute_world h2
    unfold saveResult at h3
    cases h3
    simp only
    rw [hw2, hw]

theorem body_ok {β : Type} {m : PyM (St O C) β} {s s' : St O C} (h : (do let _ ← m; return ()) s = (.ok (), s')) :
    ∃ b, m s = (.ok b, s') := by
  replace h := bind_eq_ok h
  obtain ⟨b, s1, h1, h⟩ := h
  cases h
  exact ⟨b, h1⟩

theorem get_saveFile (e f : List Char) (t : Int) (c : C) (d : Files C) :
    (saveFile e t c d).get? f = if resultName e t = f then some c else d.get? f := by
  unfold saveFile; rw [Dict.get?_set]

theorem toList_ne {a b : String} (h : a ≠ b) : a.toList ≠ b.toList := fun e => h (String.toList_inj.1 e)

/-- the loop over all experiments -/
theorem executeAll_ok [DecidableEq H] (env : Env O D H R C) (w : Ws O) (force : Bool)
    (hno : ∀ n ref, w.pipelines.get? n = some ref → ref.type ≠ .pythonModule)
    (l : List (String × Experiment)) (hl : (l.map Prod.fst).Nodup) (s s' : St O C)
    (h : PyM.forEach l (fun p => do let _ ← executeOne env w force p; return ()) s = (.ok (), s')) :
    (∀ f, (∀ p ∈ l, f ≠ resultName p.1.toList (env.now p.1)) → s'.world.files.get? f = s.world.files.get? f) ∧
    ∀ p ∈ l, (force = false ∧ s'.world.files.get? (resultName p.1.toList (env.now p.1)) =
          s.world.files.get? (resultName p.1.toList (env.now p.1))) ∨
      ∃ r, (∀ t, ∃ t', executeExperiment env w p.2 t = (.ok r, t')) ∧
        s'.world.files.get? (resultName p.1.toList (env.now p.1)) = some (env.encode r) := by
  induction l generalizing s with
  | nil => cases h; exact ⟨fun _ _ => rfl, fun p hp => by cases hp⟩
  | cons p l ih =>
    rw [PyM.forEach_cons] at h
    replace h := bind_eq_ok h
    obtain ⟨_, s1, h1, h⟩ := h
    obtain ⟨b, h1⟩ := body_ok h1
    rw [List.map_cons, List.nodup_cons] at hl
    obtain ⟨ih1, ih2⟩ := ih hl.2 s1 h
    have hne : ∀ q ∈ l, q.1 ≠ p.1 := fun q hq he => hl.1 (by rw [← he]; exact List.mem_map_of_mem hq)
    have hnm : ∀ q ∈ l, resultName p.1.toList (env.now p.1) ≠ resultName q.1.toList (env.now q.1) :=
      fun q hq he => toList_ne (hne q hq) (resultName_inj he).1.symm
    have hp' := ih1 _ hnm
    have hother : ∀ f, f ≠ resultName p.1.toList (env.now p.1) → s1.world.files.get? f = s.world.files.get? f := by
      intro f hf
      rcases executeOne_ok h1 with ⟨-, -, hw⟩ | ⟨-, s2, s3, r, -, -, hw⟩
      · rw [hw]
      · rw [hw]
        simp only
        rw [get_saveFile, if_neg (fun e => hf e.symm)]
    constructor
    · intro f hf
      rw [ih1 f (fun q hq => hf q (by simp [hq])), hother f (hf p (by simp))]
    · intro q hq
      rcases List.mem_cons.1 hq with rfl | hq
      · rw [hp']
        rcases executeOne_ok h1 with ⟨-, hf, hw⟩ | ⟨-, s2, s3, r, -, he, hw⟩
        · exact Or.inl ⟨hf, by rw [hw]⟩
        · refine Or.inr ⟨r, fun t => execute_indep hno he t, ?_⟩
          rw [hw]
          simp only
          rw [get_saveFile, if_pos rfl]
      · have := ih2 q hq
        rw [hother _ (fun e => hnm q hq e.symm)] at this
        exact this

theorem current_run {s : St O C} {w : Ws O} (h : s.world.workspace = some w) : currentWorkspace s = (.ok w, s) := by
  unfold currentWorkspace
  rw [PyM.readE_run, h]

/-- the named execution, spelled out -/
theorem executeNamed_run [DecidableEq H] (env : Env O D H R C) (n : String) (force : Bool) (s : St O C) (w : Ws O)
    (hw : s.world.workspace = some w) (x : Experiment) (hx : w.experiments.get? n = some x) (r : Result H R) (s1 : St O C)
    (h : executeExperiment env w x s = (.ok r, s1)) :
    execute env (some n) force s = (.ok (), { s1 with world := { s.world with
      files := saveFile n.toList (env.now n) (env.encode r) s.world.files } }) := by
  unfold execute
  rw [PyM.bind_ok (current_run hw)]
  simp only
  rw [hx]
  simp only
  rw [PyM.bind_ok h]
  unfold saveResult
  rw [PyM.mod_run, execute_world h]

end Workspace
end Verif
