import Verif.Workspace.Lemmas2

/-!
# Lemmas about commands: what they leave alone, and the consistency of the workspace
-/

namespace Verif
namespace Workspace
variable {O D H R C : Type}

/-- a computation that does not touch `workspace.yml` -/
def Frame {α : Type} (m : PyM (St O C) α) : Prop := ∀ s, (m s).2.world.workspace = s.world.workspace

theorem frame_pure {α : Type} (a : α) : Frame (O := O) (C := C) (Pure.pure a) := fun _ => rfl
theorem frame_raise {α : Type} (e : PyErr) : Frame (O := O) (C := C) (α := α) (PyM.raise e) := fun _ => rfl
theorem frame_readE {α : Type} (f : St O C → Except PyErr α) : Frame (PyM.readE f) := fun _ => rfl
theorem frame_read {α : Type} (f : St O C → α) : Frame (PyM.read f) := fun _ => rfl

theorem frame_bind {α β : Type} {m : PyM (St O C) α} {f : α → PyM (St O C) β} (h1 : Frame m) (h2 : ∀ a, Frame (f a)) :
    Frame (m >>= f) := by
  intro s
  rw [PyM.bind_run]
  have := h1 s
  generalize hr : m s = r at this
  obtain ⟨e | a, s'⟩ := r
  · exact this
  · exact (h2 a s').trans this

theorem frame_lift {α : Type} (x : Except PyErr α) : Frame (O := O) (C := C) (lift x) := by
  cases x <;> exact fun _ => rfl

theorem frame_item {α : Type} (d : Dict String α) (k : String) : Frame (O := O) (C := C) (item d k) := by
  unfold item
  split <;> exact fun _ => rfl

theorem frame_ite {α : Type} (c : Prop) [Decidable c] {a b : PyM (St O C) α} (ha : Frame a) (hb : Frame b) :
    Frame (if c then a else b) := by
  split <;> assumption

theorem frame_load (env : Env O D H R C) (ref : PipelineRef) : Frame (O := O) (C := C) (loadAlgorithm env ref) := by
  unfold loadAlgorithm
  split
  · exact frame_readE _
  · exact frame_lift _

theorem frame_build (ref : PipelineRef) (a : Vars.Algorithm) (v : Dict String Vars.Val) :
    Frame (O := O) (C := C) (buildModel ref a v) := by
  unfold buildModel
  refine frame_bind (frame_lift _) (fun steps => ?_)
  cases ref.type
  · exact frame_pure _
  · exact frame_pure _
  · exact frame_bind (fun _ => rfl) (fun _ => frame_pure _)

theorem frame_executeExperiment (env : Env O D H R C) (w : Ws O) (x : Experiment) :
    Frame (O := O) (C := C) (executeExperiment env w x) := by
  unfold executeExperiment
  exact frame_bind (frame_item _ _) fun _ => frame_bind (frame_load _ _) fun _ => frame_bind (frame_lift _) fun _ =>
    frame_bind (frame_item _ _) fun _ => frame_bind (frame_lift _) fun _ => frame_bind (frame_build _ _ _) fun _ =>
    frame_bind (frame_lift _) fun _ => frame_bind (frame_lift _) fun _ => frame_pure _

theorem frame_saveResult (env : Env O D H R C) (n : String) (r : Result H R) :
    Frame (O := O) (C := C) (saveResult env n r) := fun _ => rfl

theorem frame_clearResults (n : String) : Frame (O := O) (C := C) (clearResults n) := by
  intro s
  unfold clearResults
  split <;> rfl

theorem frame_changed [DecidableEq H] (env : Env O D H R C) (w : Ws O) (x : Experiment) (stored : Hashes H) :
    Frame (O := O) (C := C) (changed env w x stored) := by
  unfold changed
  exact frame_ite _ (frame_pure _) (frame_bind (frame_item _ _) fun _ => frame_bind (frame_load _ _) fun _ =>
    frame_bind (frame_lift _) fun _ => frame_ite _ (frame_pure _) (frame_bind (frame_build _ _ _) fun _ =>
    frame_ite _ (frame_pure _) (frame_bind (frame_item _ _) fun _ => frame_bind (frame_lift _) fun _ =>
    frame_bind (frame_lift _) fun _ => frame_ite _ (frame_pure _) (frame_pure _))))

theorem frame_needs [DecidableEq H] (env : Env O D H R C) (w : Ws O) (n : String) :
    Frame (O := O) (C := C) (needsReexecution env w n) := by
  unfold needsReexecution
  split
  · exact frame_raise _
  · exact frame_bind (frame_readE _) fun _ => frame_ite _ (frame_pure _) (frame_bind (frame_readE _) fun _ =>
      frame_bind (frame_lift _) fun _ => frame_changed _ _ _ _)

theorem frame_catch {m : PyM (St O C) Bool} (h : Frame m) : Frame (catchValueError m) := by
  intro s
  have := h s
  unfold catchValueError
  split
  · rename_i s' hs
    rw [hs] at this
    exact this
  · rename_i s' hs
    rw [hs] at this
    exact this
  · exact this

theorem frame_executeOne [DecidableEq H] (env : Env O D H R C) (w : Ws O) (force : Bool) (p : String × Experiment) :
    Frame (O := O) (C := C) (executeOne env w force p) := by
  unfold executeOne
  exact frame_bind (frame_catch (frame_needs _ _ _)) fun _ => frame_ite _ (frame_pure _)
    (frame_bind (frame_executeExperiment _ _ _) fun _ => frame_bind (frame_saveResult _ _ _) fun _ => frame_pure _)

theorem frame_forEach {β : Type} (l : List β) (body : β → PyM (St O C) Unit) (h : ∀ x, Frame (body x)) :
    Frame (PyM.forEach l body) := by
  induction l with
  | nil => exact fun _ => rfl
  | cons x xs ih => exact frame_bind (h x) fun _ => ih

theorem frame_current : Frame (currentWorkspace : PyM (St O C) (Ws O)) := frame_readE _

theorem frame_execute [DecidableEq H] (env : Env O D H R C) (n : Option String) (force : Bool) :
    Frame (O := O) (C := C) (execute env n force) := by
  unfold execute
  refine frame_bind frame_current fun w => ?_
  cases n with
  | none => exact frame_forEach _ _ fun p => frame_bind (frame_executeOne _ _ _ _) fun _ => frame_pure _
  | some n =>
    simp only
    split
    · exact frame_pure _
    · exact frame_bind (frame_executeExperiment _ _ _) fun _ => frame_saveResult _ _ _

theorem frame_createExperiment (env : Env O D H R C) (w : Ws O) (a : ExperimentAnswer) :
    Frame (O := O) (C := C) (createExperiment env w a) := by
  unfold createExperiment
  split
  · exact frame_raise _
  · refine frame_bind (frame_item _ _) fun _ => frame_bind (frame_load _ _) fun _ => ?_
    split
    · exact frame_raise _
    · exact frame_pure _

/-! ### The invariant -/

/-- the workspace file, if there is one, is consistent -/
def IntactFile (o : Option (Ws O)) : Prop := ∀ w, o = some w → Intact w

/-- a computation that writes only consistent workspaces -/
def Keeps {α : Type} (m : PyM (St O C) α) : Prop :=
  ∀ s, IntactFile s.world.workspace → IntactFile (m s).2.world.workspace

theorem Frame.keeps {α : Type} {m : PyM (St O C) α} (h : Frame m) : Keeps m := fun s hs => by rw [h s]; exact hs

theorem keeps_bind {α β : Type} {m : PyM (St O C) α} {f : α → PyM (St O C) β} (h1 : Keeps m)
    (h2 : ∀ s a s', m s = (.ok a, s') → IntactFile s.world.workspace →
      IntactFile s'.world.workspace → IntactFile (f a s').2.world.workspace) : Keeps (m >>= f) := by
  intro s hs
  have := h1 s hs
  rw [PyM.bind_run]
  generalize hr : m s = r at this
  obtain ⟨e | a, s'⟩ := r
  · exact this
  · exact h2 s a s' hr hs this

theorem keeps_bind' {α β : Type} {m : PyM (St O C) α} {f : α → PyM (St O C) β} (h1 : Keeps m) (h2 : ∀ a, Keeps (f a)) :
    Keeps (m >>= f) := keeps_bind h1 (fun _ a s' _ _ h => h2 a s' h)

theorem keeps_write (w : Ws O) (h : Intact w) : Keeps (O := O) (C := C) (writeWorkspace w) := by
  intro s _ w' hw'
  cases hw'
  exact h

/-- after reading the workspace it is known to be consistent -/
theorem keeps_current {α : Type} {f : Ws O → PyM (St O C) α} (h : ∀ w, Intact w → Keeps (f w)) :
    Keeps (currentWorkspace >>= f) := by
  refine keeps_bind frame_current.keeps ?_
  intro s a s' hr h1 h2
  have ha : s.world.workspace = some a := by
    unfold currentWorkspace at hr
    simp only [PyM.readE_run, Prod.mk.injEq] at hr
    revert hr
    cases s.world.workspace with
    | none => intro hr; cases hr.1
    | some w => intro hr; cases hr.1; rfl
  exact h a (h1 a ha) s' h2

theorem lift_ok {α : Type} {x : Except PyErr α} {s s' : St O C} {a : α} (h : lift x s = (.ok a, s')) : x = .ok a := by
  cases x with
  | error e => cases h
  | ok b => cases h; rfl

theorem keeps_lift_bind {α β : Type} {x : Except PyErr α} {f : α → PyM (St O C) β} (h : ∀ a, x = .ok a → Keeps (f a)) :
    Keeps (lift x >>= f) :=
  keeps_bind (frame_lift x).keeps (fun _ a s' hr _ h2 => h a (lift_ok hr) s' h2)

theorem mem_keys_set {α : Type} (d : Dict String α) (k k' : String) (v : α) (h : k ∈ d.keys) : k ∈ (d.set k' v).keys := by
  rw [Dict.mem_keys_iff, Dict.get?_set]
  split
  · rfl
  · exact (Dict.mem_keys_iff _ _).1 h

theorem intact_empty : Intact (emptyWorkspace : Ws O) := by
  intro n x h
  cases h

theorem createPipeline_intact (env : Env O D H R C) (w w' : Ws O) (a : PipelineAnswer) (hw : Intact w)
    (h : createPipeline env w a = .ok w') : Intact w' := by
  cases a with
  | preconfigured a n =>
    simp only [createPipeline] at h
    split at h
    · cases h
    · cases h
      exact fun m x hx => ⟨mem_keys_set _ _ _ _ (hw m x hx).1, (hw m x hx).2⟩
  | eject a n =>
    simp only [createPipeline] at h
    split at h
    · cases h
    · cases h
      exact fun m x hx => ⟨mem_keys_set _ _ _ _ (hw m x hx).1, (hw m x hx).2⟩
  | skeleton n =>
    cases h
    exact fun m x hx => ⟨mem_keys_set _ _ _ _ (hw m x hx).1, (hw m x hx).2⟩

theorem createLoader_intact (env : Env O D H R C) (w : Ws O) (a : LoaderAnswer) (hw : Intact w) :
    Intact (createLoader env w a) := by
  unfold createLoader
  split <;> exact fun m x hx => ⟨(hw m x hx).1, mem_keys_set _ _ _ _ (hw m x hx).2⟩

theorem select_some {choices : List String} {a b : String} (h : select choices a = some b) : b = a ∧ a ∈ choices := by
  unfold select at h
  split at h
  · cases h; exact ⟨rfl, by assumption⟩
  · cases h

theorem createExperiment_intact (env : Env O D H R C) (w : Ws O) (a : ExperimentAnswer) (hw : Intact w) (s s' : St O C)
    (w' : Ws O) (h : createExperiment env w a s = (.ok w', s')) : Intact w' := by
  unfold createExperiment at h
  cases hp : select w.pipelines.keys a.pipeline with
  | none => rw [hp] at h; cases h
  | some p =>
    rw [hp] at h
    simp only [PyM.bind_run] at h
    split at h
    · split at h
      · cases hl : select w.dataloaders.keys a.dataloader with
        | none => rw [hl] at h; cases h
        | some l =>
          rw [hl] at h
          simp only [PyM.pure_run, Prod.mk.injEq, Except.ok.injEq] at h
          rw [← h.1]
          intro n x hx
          rw [Dict.get?_set] at hx
          split at hx
          · cases hx
            obtain ⟨rfl, h1⟩ := select_some hp
            obtain ⟨rfl, h2⟩ := select_some hl
            exact ⟨h1, h2⟩
          · exact hw n x hx
      · cases h
    · cases h

theorem keeps_createExperiment_bind {α : Type} (env : Env O D H R C) (w : Ws O) (a : ExperimentAnswer) (hw : Intact w)
    {f : Ws O → PyM (St O C) α} (h : ∀ w', Intact w' → Keeps (f w')) : Keeps (createExperiment env w a >>= f) :=
  keeps_bind (frame_createExperiment env w a).keeps
    (fun s a' s' hr _ h2 => h a' (createExperiment_intact env w a hw s s' a' hr) s' h2)

theorem not_inUse {w : Ws O} {n : String} (h : ¬ pipelineInUse w n = true) {m : String} {x : Experiment}
    (hx : w.experiments.get? m = some x) : x.pipeline ≠ n := by
  intro he
  apply h
  unfold pipelineInUse
  rw [List.any_eq_true]
  exact ⟨(m, x), (Dict.mem_items_iff _ _ _).2 hx, by simp [he]⟩

theorem not_loaderInUse {w : Ws O} {n : String} (h : ¬ loaderInUse w n = true) {m : String} {x : Experiment}
    (hx : w.experiments.get? m = some x) : x.dataloader ≠ n := by
  intro he
  apply h
  unfold loaderInUse
  rw [List.any_eq_true]
  exact ⟨(m, x), (Dict.mem_items_iff _ _ _).2 hx, by simp [he]⟩

theorem mem_keys_del {α : Type} (d : Dict String α) (k k' : String) (h : k ∈ d.keys) (hne : k ≠ k') : k ∈ (d.del k').keys := by
  rw [Dict.mem_keys_iff, Dict.get?_del, if_neg (fun e => hne e.symm)]
  exact (Dict.mem_keys_iff _ _).1 h

/-- every command keeps the workspace consistent -/
theorem keeps_body [DecidableEq H] (env : Env O D H R C) (c : Cmd) : Keeps (O := O) (C := C) (c.body env) := by
  cases c with
  | init a =>
    simp only [Cmd.body, initWorkspace]
    refine keeps_bind' (frame_read _).keeps fun ex => ?_
    split
    · exact (frame_raise _).keeps
    · have key : ∀ w1 : Ws O, Intact w1 → Keeps (O := O) (C := C) (do
          let w2 := match a.loader with
            | none => w1
            | some l => createLoader env w1 l
          let w3 ← if w2.pipelines.items.length > 0 ∧ w2.dataloaders.items.length > 0 then
              match a.experiment with
              | none => Pure.pure w2
              | some x => createExperiment env w2 x
            else Pure.pure w2
          writeWorkspace w3) := by
        intro w1 h1
        have h2 : Intact (match a.loader with
            | none => w1
            | some l => createLoader env w1 l) := by
          cases a.loader with
          | none => exact h1
          | some l => exact createLoader_intact env w1 l h1
        generalize (match a.loader with
            | none => w1
            | some l => createLoader env w1 l) = w2 at h2
        simp only
        split
        · cases a.experiment with
          | none => exact keeps_bind (frame_pure w2).keeps (fun s b s' hr _ h => by cases hr; exact keeps_write w2 h2 s h)
          | some x => exact keeps_createExperiment_bind env w2 x h2 (fun w' hw' => keeps_write w' hw')
        · exact keeps_bind (frame_pure w2).keeps (fun s b s' hr _ h => by cases hr; exact keeps_write w2 h2 s h)
      cases a.pipeline with
      | none =>
        exact keeps_bind (frame_pure _).keeps (fun s b s' hr _ h => by cases hr; exact key _ intact_empty s h)
      | some p =>
        exact keeps_lift_bind (fun w1 h1 => key w1 (createPipeline_intact env _ w1 p intact_empty h1))
  | addPipeline a =>
    exact keeps_current fun w hw => keeps_lift_bind fun w' h' => keeps_write w' (createPipeline_intact env w w' a hw h')
  | removePipeline n =>
    refine keeps_current fun w hw => ?_
    split
    · exact (frame_pure _).keeps
    · split
      · exact (frame_pure _).keeps
      · rename_i hu
        exact keeps_write _ (fun m x hx => ⟨mem_keys_del _ _ _ (hw m x hx).1 (not_inUse hu hx), (hw m x hx).2⟩)
  | addLoader a => exact keeps_current fun w hw => keeps_write _ (createLoader_intact env w a hw)
  | removeLoader n =>
    refine keeps_current fun w hw => ?_
    split
    · exact (frame_pure _).keeps
    · split
      · exact (frame_pure _).keeps
      · rename_i hu
        exact keeps_write _ (fun m x hx => ⟨(hw m x hx).1, mem_keys_del _ _ _ (hw m x hx).2 (not_loaderInUse hu hx)⟩)
  | addExperiment a =>
    exact keeps_current fun w hw => keeps_createExperiment_bind env w a hw fun w' hw' => keeps_write w' hw'
  | removeExperiment n =>
    refine keeps_current fun w hw => ?_
    split
    · exact (frame_pure _).keeps
    · refine keeps_bind' (frame_clearResults n).keeps fun _ => keeps_write _ (fun m x hx => ?_)
      rw [Dict.get?_del] at hx
      split at hx
      · cases hx
      · exact hw m x hx
  | clearExperiment n =>
    refine keeps_current fun w hw => ?_
    split
    · exact (frame_pure _).keeps
    · exact keeps_bind' (frame_clearResults n).keeps fun _ => keeps_write _ hw
  | updateVariable e v t =>
    refine keeps_current fun w hw => ?_
    split
    · exact (frame_pure _).keeps
    · rename_i x hx
      refine keeps_bind' (frame_item _ _).keeps fun ref => keeps_bind' (frame_load _ _).keeps fun a => ?_
      split
      · exact (frame_pure _).keeps
      · split
        · exact (frame_pure _).keeps
        · refine keeps_bind' (frame_lift _).keeps fun ok => ?_
          split
          · exact (frame_pure _).keeps
          · refine keeps_write _ (fun m y hy => ?_)
            unfold storeVariable at hy ⊢
            simp only at hy ⊢
            rw [Dict.get?_set] at hy
            split at hy
            · cases hy
              exact hw e x hx
            · exact hw m y hy
  | execute n f => exact (frame_execute env n f).keeps

end Workspace
end Verif
