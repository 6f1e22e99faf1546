import Verif.Crash.Model
import Verif.Workspace.Lemmas6

/-!
# Lemmas: the journal tells what a command does
-/

namespace Verif
namespace Workspace
namespace Crash
variable {O D H R : Type}

/-- the effect of an operation in the model without texts -/
def Op.act : Op O → World O Text → World O Text
  | .writeWorkspace _ w, x => { x with workspace := some w }
  | .writeResult e t c, x => { x with files := saveFile e t c x.files }
  | .remove e t, x => { x with files := x.files.del (resultName e t) }

/-- `mj` does what `m` does, and its journal explains the new directory -/
def Sim {α : Type} (m : PyM (St O Text) α) (mj : PyM (J O) α) : Prop :=
  ∀ j, (mj j).1 = (m j.st).1 ∧ (mj j).2.st = (m j.st).2 ∧
    ∃ ops, (mj j).2.log = j.log ++ ops ∧ (m j.st).2.world = ops.foldl (fun x op => op.act x) j.st.world

theorem sim_quiet {α : Type} {m : PyM (St O Text) α} (h : FrameW m) : Sim m (quiet m) :=
  fun j => ⟨rfl, rfl, [], by simp [quiet], h j.st⟩

theorem sim_bind {α β : Type} {m : PyM (St O Text) α} {mj : PyM (J O) α} {f : α → PyM (St O Text) β} {fj : α → PyM (J O) β}
    (h : Sim m mj) (hf : ∀ a, Sim (f a) (fj a)) : Sim (m >>= f) (mj >>= fj) := by
  intro j
  obtain ⟨h1, h2, ops, h3, h4⟩ := h j
  rw [PyM.bind_run, PyM.bind_run]
  generalize hr : m j.st = r at h1 h2 h4
  generalize hq : mj j = q at h1 h2 h3
  obtain ⟨r1, r2⟩ := r
  obtain ⟨q1, q2⟩ := q
  simp only at h1 h2 h3 h4
  subst h1
  cases q1 with
  | error e => exact ⟨rfl, h2, ops, h3, h4⟩
  | ok a =>
    subst h2
    obtain ⟨g1, g2, ops2, g3, g4⟩ := hf a q2
    refine ⟨g1, g2, ops ++ ops2, ?_, ?_⟩
    · simp only
      rw [g3, h3, List.append_assoc]
    · simp only
      rw [g4, h4, List.foldl_append]

theorem sim_pure {α : Type} (a : α) : Sim (O := O) (Pure.pure a) (Pure.pure a) :=
  fun j => ⟨rfl, rfl, [], by simp, rfl⟩

theorem sim_ite {α : Type} (c : Prop) [Decidable c] {a b : PyM (St O Text) α} {aj bj : PyM (J O) α} (ha : Sim a aj)
    (hb : Sim b bj) : Sim (if c then a else b) (if c then aj else bj) := by
  split <;> assumption

theorem sim_forEach {β : Type} (l : List β) {f : β → PyM (St O Text) Unit} {fj : β → PyM (J O) Unit}
    (h : ∀ x, Sim (f x) (fj x)) : Sim (PyM.forEach l f) (PyM.forEach l fj) := by
  induction l with
  | nil => exact sim_pure ()
  | cons x l ih => exact sim_bind (h x) fun _ => ih

theorem sim_write (w : Ws O) (i : Bool) : Sim (writeWorkspace w) (writeWorkspaceJ w i) :=
  fun _ => ⟨rfl, rfl, [.writeWorkspace i w], rfl, rfl⟩

theorem sim_save (env : Env O D H R Text) (n : String) (r : Result H R) : Sim (saveResult env n r) (saveResultJ env n r) :=
  fun _ => ⟨rfl, rfl, [.writeResult n.toList (env.now n) (env.encode r)], rfl, rfl⟩

theorem removeAll_run (n : String) (vs : List Int) (j : J O) :
    PyM.forEach vs (removeJ n) j = (.ok (), ⟨{ j.st with world := { j.st.world with
      files := vs.foldl (fun d v => d.del (resultName n.toList v)) j.st.world.files } },
      j.log ++ vs.map (.remove n.toList)⟩) := by
  induction vs generalizing j with
  | nil => simp
  | cons v vs ih =>
    have h : removeJ n v j = (.ok (), ⟨{ j.st with world := { j.st.world with
      files := j.st.world.files.del (resultName n.toList v) } }, j.log ++ [.remove n.toList v]⟩) := rfl
    rw [PyM.forEach_cons_ok h, ih]
    simp

theorem foldl_act_remove (n : List Char) (vs : List Int) (x : World O Text) :
    (vs.map (Op.remove n)).foldl (fun x op => op.act x) x =
      { x with files := vs.foldl (fun d v => d.del (resultName n v)) x.files } := by
  induction vs generalizing x with
  | nil => rfl
  | cons v vs ih => rw [List.map_cons, List.foldl_cons, ih]; rfl

theorem clearFiles_eq (e : List Char) (d : Files Text) : clearFiles e d = match loadVersions e d.keys with
    | .error err => .error err
    | .ok vs => .ok (vs.foldl (fun d v => d.del (resultName e v)) d) := by
  unfold clearFiles; rfl

/-- clearing, spelled out -/
theorem clearResultsJ_run (n : String) (j : J O) :
    clearResultsJ n j = match loadVersions n.toList j.st.world.files.keys with
      | .error e => (.error e, j)
      | .ok vs => (.ok (), ⟨{ j.st with world := { j.st.world with
          files := vs.foldl (fun d v => d.del (resultName n.toList v)) j.st.world.files } },
          j.log ++ vs.map (.remove n.toList)⟩) := by
  unfold clearResultsJ
  rw [PyM.bind_run]
  have : quiet (PyM.readE fun s : St O Text => loadVersions n.toList s.world.files.keys) j =
      (loadVersions n.toList j.st.world.files.keys, j) := rfl
  rw [this]
  cases loadVersions n.toList j.st.world.files.keys with
  | error e => rfl
  | ok vs => exact removeAll_run n vs j

theorem sim_clear (n : String) : Sim (O := O) (clearResults n) (clearResultsJ n) := by
  intro j
  rw [clearResultsJ_run]
  unfold clearResults
  rw [clearFiles_eq]
  cases loadVersions n.toList j.st.world.files.keys with
  | error e => exact ⟨rfl, rfl, [], by simp, rfl⟩
  | ok vs => exact ⟨rfl, rfl, _, rfl, by rw [foldl_act_remove]⟩

theorem frameW_executeExperiment (env : Env O D H R Text) (w : Ws O) (x : Experiment) :
    FrameW (executeExperiment env w x) := by
  unfold executeExperiment
  exact frameW_bind (frameW_item _ _) fun _ => frameW_bind (frameW_load _ _) fun _ => frameW_bind (frameW_lift _) fun _ =>
    frameW_bind (frameW_item _ _) fun _ => frameW_bind (frameW_lift _) fun _ => frameW_bind (frameW_build _ _ _) fun _ =>
    frameW_bind (frameW_lift _) fun _ => frameW_bind (frameW_lift _) fun _ => frameW_pure _

theorem frameW_current : FrameW (currentWorkspace : PyM (St O Text) (Ws O)) := frameW_readE _

theorem frameW_raise {α : Type} (e : PyErr) : FrameW (O := O) (C := Text) (α := α) (PyM.raise e) := fun _ => rfl

theorem frameW_createExperiment (env : Env O D H R Text) (w : Ws O) (a : ExperimentAnswer) :
    FrameW (createExperiment env w a) := by
  unfold createExperiment
  split
  · exact frameW_raise _
  · refine frameW_bind (frameW_item _ _) fun _ => frameW_bind (frameW_load _ _) fun _ => ?_
    split
    · exact frameW_raise _
    · exact frameW_pure _

theorem frameW_initComputes (env : Env O D H R Text) (a : InitAnswers) : FrameW (initComputes env a) := by
  unfold initComputes
  refine frameW_bind (fun _ => rfl) fun b => frameW_ite _ (frameW_raise _) ?_
  have key : ∀ w2 : Ws O, FrameW (O := O) (C := Text) (if w2.pipelines.items.length > 0 ∧ w2.dataloaders.items.length > 0 then
      match a.experiment with
      | none => Pure.pure w2
      | some x => createExperiment env w2 x
    else Pure.pure w2) := by
    intro w2
    refine frameW_ite _ ?_ (frameW_pure _)
    split
    · exact frameW_pure _
    · exact frameW_createExperiment _ _ _
  simp only
  split
  · exact frameW_bind (frameW_pure _) fun w1 => key _
  · exact frameW_bind (frameW_lift _) fun w1 => key _

theorem sim_executeOne [DecidableEq H] (env : Env O D H R Text) (w : Ws O) (force : Bool) (p : String × Experiment) :
    Sim (executeOne env w force p) (executeOneJ env w force p) :=
  sim_bind (sim_quiet (frameW_needs env w p.1)) fun _ => sim_ite _ (sim_pure _)
    (sim_bind (sim_quiet (frameW_executeExperiment env w p.2)) fun r => sim_bind (sim_save env p.1 r) fun _ => sim_pure _)

theorem sim_execute [DecidableEq H] (env : Env O D H R Text) (n : Option String) (force : Bool) :
    Sim (execute env n force) (executeJ env n force) := by
  refine sim_bind (sim_quiet frameW_current) fun w => ?_
  cases n with
  | none => exact sim_forEach _ fun p => sim_bind (sim_executeOne env w force p) fun _ => sim_pure _
  | some n =>
    simp only
    cases w.experiments.get? n with
    | none => exact sim_pure _
    | some x => exact sim_bind (sim_quiet (frameW_executeExperiment env w x)) fun r => sim_save env n r

theorem bind_assoc' {σ α β γ : Type} (m : PyM σ α) (f : α → PyM σ β) (g : β → PyM σ γ) :
    ((m >>= f) >>= g) = (m >>= fun a => f a >>= g) := by
  funext s
  rw [PyM.bind_run, PyM.bind_run, PyM.bind_run]
  generalize m s = r
  obtain ⟨e | a, s'⟩ := r <;> rfl

theorem initWorkspace_eq (env : Env O D H R Text) (a : InitAnswers) :
    initWorkspace env a = (initComputes env a >>= writeWorkspace) := by
  have key : ∀ w2 : Ws O, (do
      let w3 ← if w2.pipelines.items.length > 0 ∧ w2.dataloaders.items.length > 0 then
          match a.experiment with
          | none => Pure.pure w2
          | some x => createExperiment env w2 x
        else Pure.pure w2
      writeWorkspace w3 : PyM (St O Text) Unit) = ((if w2.pipelines.items.length > 0 ∧ w2.dataloaders.items.length > 0 then
          match a.experiment with
          | none => Pure.pure w2
          | some x => createExperiment env w2 x
        else Pure.pure w2) >>= writeWorkspace) := by
    intro w2
    simp only
    split
    · cases a.experiment <;> rfl
    · rfl
  unfold initWorkspace initComputes
  rw [bind_assoc']
  congr 1
  funext b
  split
  · rfl
  · simp only
    cases a.pipeline with
    | none =>
      simp only
      rw [bind_assoc']
      congr 1
      funext w1
      exact key _
    | some p =>
      simp only
      rw [bind_assoc']
      congr 1
      funext w1
      exact key _

theorem sim_body [DecidableEq H] (env : Env O D H R Text) (c : Cmd) : Sim (c.body env) (bodyJ env c) := by
  cases c with
  | init a =>
    show Sim (initWorkspace env a) _
    rw [initWorkspace_eq]
    exact sim_bind (sim_quiet (frameW_initComputes env a)) fun w => sim_write w true
  | addPipeline a =>
    exact sim_bind (sim_quiet frameW_current) fun w => sim_bind (sim_quiet (frameW_lift _)) fun w' => sim_write w' false
  | removePipeline n =>
    exact sim_bind (sim_quiet frameW_current) fun w => sim_ite _ (sim_pure _) (sim_ite _ (sim_pure _) (sim_write _ _))
  | addLoader a => exact sim_bind (sim_quiet frameW_current) fun w => sim_write _ _
  | removeLoader n =>
    exact sim_bind (sim_quiet frameW_current) fun w => sim_ite _ (sim_pure _) (sim_ite _ (sim_pure _) (sim_write _ _))
  | addExperiment a =>
    exact sim_bind (sim_quiet frameW_current) fun w => sim_bind (sim_quiet (frameW_createExperiment _ _ _)) fun w' => sim_write _ _
  | removeExperiment n =>
    exact sim_bind (sim_quiet frameW_current) fun w => sim_ite _ (sim_pure _) (sim_bind (sim_clear n) fun _ => sim_write _ _)
  | clearExperiment n =>
    exact sim_bind (sim_quiet frameW_current) fun w => sim_ite _ (sim_pure _) (sim_bind (sim_clear n) fun _ => sim_write _ _)
  | updateVariable e v t =>
    refine sim_bind (sim_quiet frameW_current) fun w => ?_
    cases w.experiments.get? e with
    | none => exact sim_pure _
    | some x =>
      refine sim_bind (sim_quiet (frameW_item _ _)) fun ref => sim_bind (sim_quiet (frameW_load _ _)) fun a => ?_
      cases findVariable a.declared v with
      | none => exact sim_pure _
      | some d =>
        show Sim (match castTo env.pyFloat d.type t with
          | none => _
          | some v => _) (match castTo env.pyFloat d.type t with
          | none => _
          | some v => _)
        cases castTo env.pyFloat d.type t with
        | none => exact sim_pure _
        | some v => exact sim_bind (sim_quiet (frameW_lift _)) fun ok => sim_ite _ (sim_pure _) (sim_write _ _)
  | execute n f => exact sim_execute env n f

end Crash
end Workspace
end Verif
