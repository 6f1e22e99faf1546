import Verif.Workspace.Lemmas7

/-!
# C61-C65, C74: the workspace commands
-/

namespace Verif
namespace Workspace
open Vars (Val Obj Algorithm Variable)
variable {O D H R C : Type}

/-! ### C61 -/

/-- C61: after any sequence of commands, in any changing world, every experiment's pipeline and data loader exist. -/
theorem C61_intact [DecidableEq H] (cmds : List (Env O D H R C × Cmd)) (world : World O C)
    (h : ∀ w, world.workspace = some w → Intact w) (w : Ws O) (hw : (runAll cmds world).workspace = some w) : Intact w := by
  have key : ∀ (l : List (Env O D H R C × Cmd)) (v : World O C), IntactFile v.workspace → IntactFile (runAll l v).workspace := by
    intro l
    induction l with
    | nil => exact fun v hv => hv
    | cons p l ih =>
      intro v hv
      exact ih _ (keeps_body p.1 p.2 ⟨v, p.1.algorithm .pythonModule⟩ hv)
  exact key cmds world h w hw

/-- C61, removing a pipeline: it is removed iff it exists and no experiment uses it; nothing else changes. -/
theorem C61_remove_pipeline [DecidableEq H] (env : Env O D H R C) (name : String) (world : World O C) (w : Ws O)
    (hw : world.workspace = some w) :
    ((∀ m x, w.experiments.get? m = some x → x.pipeline ≠ name) → ∃ w', (Cmd.removePipeline name).run env world =
        (.ok (), { world with workspace := some w' }) ∧ w'.dataloaders = w.dataloaders ∧ w'.experiments = w.experiments ∧
        ∀ m, w'.pipelines.get? m = if m = name then none else w.pipelines.get? m) ∧
    ((∃ m x, w.experiments.get? m = some x ∧ x.pipeline = name) → (Cmd.removePipeline name).run env world = (.ok (), world)) := by
  have hrun : (Cmd.removePipeline name).run env world = if w.pipelines.has name = false then (.ok (), world)
      else if pipelineInUse w name then (.ok (), world)
      else (.ok (), { world with workspace := some { w with pipelines := w.pipelines.del name } }) := by
    show ((Workspace.removePipeline name _).1, (Workspace.removePipeline name _).2.world) = _
    unfold Workspace.removePipeline
    rw [PyM.bind_ok (current_run (s := ⟨world, env.algorithm .pythonModule⟩) hw)]
    split
    · rfl
    · split <;> rfl
  rw [hrun]
  have hset : world = { world with workspace := some w } := by rw [← hw]
  constructor
  · intro hu
    by_cases hh : w.pipelines.has name = false
    · rw [if_pos hh]
      refine ⟨w, by rw [← hset], rfl, rfl, fun m => ?_⟩
      split
      · rename_i hm
        subst hm
        unfold Dict.has at hh
        cases hx : w.pipelines.get? m with
        | none => rfl
        | some _ => rw [hx] at hh; cases hh
      · rfl
    · rw [if_neg hh, if_neg]
      · refine ⟨_, rfl, rfl, rfl, fun m => ?_⟩
        simp only
        rw [Dict.get?_del]
        by_cases hm : name = m
        · rw [if_pos hm, if_pos hm.symm]
        · rw [if_neg hm, if_neg (fun e => hm e.symm)]
      · intro hin
        unfold pipelineInUse at hin
        rw [List.any_eq_true] at hin
        obtain ⟨⟨m, x⟩, h1, h2⟩ := hin
        exact hu m x ((Dict.mem_items_iff _ _ _).1 h1) (by simpa using h2)
  · rintro ⟨m, x, h1, h2⟩
    split
    · rfl
    · rw [if_pos]
      · unfold pipelineInUse
        rw [List.any_eq_true]
        exact ⟨(m, x), (Dict.mem_items_iff _ _ _).2 h1, by simp [h2]⟩

/-- C61, removing a data loader: it is removed iff it exists and no experiment uses it; nothing else changes. -/
theorem C61_remove_loader [DecidableEq H] (env : Env O D H R C) (name : String) (world : World O C) (w : Ws O)
    (hw : world.workspace = some w) :
    ((∀ m x, w.experiments.get? m = some x → x.dataloader ≠ name) → ∃ w', (Cmd.removeLoader name).run env world =
        (.ok (), { world with workspace := some w' }) ∧ w'.pipelines = w.pipelines ∧ w'.experiments = w.experiments ∧
        ∀ m, w'.dataloaders.get? m = if m = name then none else w.dataloaders.get? m) ∧
    ((∃ m x, w.experiments.get? m = some x ∧ x.dataloader = name) → (Cmd.removeLoader name).run env world = (.ok (), world)) := by
  have hrun : (Cmd.removeLoader name).run env world = if w.dataloaders.has name = false then (.ok (), world)
      else if loaderInUse w name then (.ok (), world)
      else (.ok (), { world with workspace := some { w with dataloaders := w.dataloaders.del name } }) := by
    show ((Workspace.removeLoader name _).1, (Workspace.removeLoader name _).2.world) = _
    unfold Workspace.removeLoader
    rw [PyM.bind_ok (current_run (s := ⟨world, env.algorithm .pythonModule⟩) hw)]
    split
    · rfl
    · split <;> rfl
  rw [hrun]
  have hset : world = { world with workspace := some w } := by rw [← hw]
  constructor
  · intro hu
    by_cases hh : w.dataloaders.has name = false
    · rw [if_pos hh]
      refine ⟨w, by rw [← hset], rfl, rfl, fun m => ?_⟩
      split
      · rename_i hm
        subst hm
        unfold Dict.has at hh
        cases hx : w.dataloaders.get? m with
        | none => rfl
        | some _ => rw [hx] at hh; cases hh
      · rfl
    · rw [if_neg hh, if_neg]
      · refine ⟨_, rfl, rfl, rfl, fun m => ?_⟩
        simp only
        rw [Dict.get?_del]
        by_cases hm : name = m
        · rw [if_pos hm, if_pos hm.symm]
        · rw [if_neg hm, if_neg (fun e => hm e.symm)]
      · intro hin
        unfold loaderInUse at hin
        rw [List.any_eq_true] at hin
        obtain ⟨⟨m, x⟩, h1, h2⟩ := hin
        exact hu m x ((Dict.mem_items_iff _ _ _).1 h1) (by simpa using h2)
  · rintro ⟨m, x, h1, h2⟩
    split
    · rfl
    · rw [if_pos]
      · unfold loaderInUse
        rw [List.any_eq_true]
        exact ⟨(m, x), (Dict.mem_items_iff _ _ _).2 h1, by simp [h2]⟩

/-! ### C62 -/

/-- C62: in a directory without misleading file names, the versions of an experiment are exactly the seconds of its own saved
results, newest first; the order in which the directory is listed plays no role. -/
theorem C62_versions (experiment : List Char) (listing : List (List Char)) (hn : listing.Nodup)
    (ht : Tidy experiment listing) :
    ∃ vs, loadVersions experiment listing = .ok vs ∧ (∀ t, t ∈ vs ↔ resultName experiment t ∈ listing) ∧
      vs.Pairwise (fun a b => a > b) :=
  loadVersions_ok experiment listing ht hn

/-- C62, other experiments: two results have the same file name only if they belong to the same experiment and second, so the
results of another experiment are never listed, whatever underscores and digits the names contain. -/
theorem C62_no_mixing (e e' : List Char) (t t' : Int) :
    (resultName e t = resultName e' t' → e = e' ∧ t = t') ∧
    (e ≠ e' → loadVersions e [resultName e' t'] = .ok []) := by
  refine ⟨resultName_inj, fun hne => ?_⟩
  obtain ⟨vs, h1, h2, -⟩ := loadVersions_ok e [resultName e' t'] (fun f hf => Or.inl ⟨e', t', by simpa using hf⟩) (by simp)
  rw [h1]
  cases vs with
  | nil => rfl
  | cons v vs =>
    have := (h2 v).1 (by simp)
    exact absurd (resultName_inj (List.mem_singleton.1 this)).1 hne

/-- C62, other files: the listing raises iff some file starts with the name and an underscore, ends with `.json` and has
something else than an integer between its last underscore and the first dot after it; it raises `ValueError`. -/
theorem C62_error (experiment : List Char) (listing : List (List Char)) :
    (loadVersions experiment listing = .error .valueError ↔
      ∃ f ∈ listing, (experiment ++ ['_'] <+: f) ∧ (".json".toList <:+ f) ∧ fileVersion f = none) ∧
    (∀ err, loadVersions experiment listing = .error err → err = .valueError) := by
  obtain ⟨h1, h2⟩ := scanVersions_error experiment listing
  have h3 : ∀ err, loadVersions experiment listing = .error err ↔ scanVersions experiment listing = .error err := by
    intro err
    unfold loadVersions
    cases scanVersions experiment listing with
    | error e => exact Iff.rfl
    | ok vs => exact ⟨(fun h => by cases h), (fun h => by cases h)⟩
  refine ⟨?_, fun err h => h2 err ((h3 err).1 h)⟩
  rw [h3, h1]
  simp only [mayBeVersion_iff, and_assoc]

/-- the names `pc` and `pc_2` with results, and a file that is no result -/
example : Tidy "pc".toList [resultName "pc".toList 1700000000, resultName "pc_2".toList 1600000000, "workspace.yml".toList] := by
  intro f hf
  simp only [List.mem_cons, List.not_mem_nil, or_false] at hf
  rcases hf with rfl | rfl | rfl
  · exact Or.inl ⟨_, _, rfl⟩
  · exact Or.inl ⟨_, _, rfl⟩
  · exact Or.inr (Or.inr (by decide +kernel))

/-- a file `pc_notes.json` makes the listing of `pc` fail -/
example : loadVersions "pc".toList ["pc_notes.json".toList] = .error .valueError := by decide +kernel

/-- so does a result that was renamed by hand -/
example : loadVersions "pc".toList [resultName "pc".toList 5, "pc_5 (copy).json".toList] = .error .valueError := by
  decide +kernel

/-! ### C63 -/

/-- C63: after any history of saves (at seconds that never decrease) and clears, the newest result of an experiment is the
content of its last save since it was last cleared, whatever happens to other experiments; a cleared experiment has no result
and an untouched one keeps its newest. -/
theorem C63_latest (now : Int) (d : Files C) (h : DirOk now d) (ops : List (FileOp C)) (hc : ClockOk now ops) :
    ∃ d', applyAll ops d = .ok d' ∧ ∀ e,
      (∀ c, lastOf e ops = some (some c) → latestFile e d' = .ok c) ∧
      (lastOf e ops = some none → latestFile e d' = .error .valueError) ∧
      (lastOf e ops = none → latestFile e d' = latestFile e d) := by
  obtain ⟨d', now', h1, h2, h3⟩ := applyAll_ok ops now d h hc
  refine ⟨d', h1, fun e => ⟨(h3 e).2.2, fun hl => ?_, fun hl => ?_⟩⟩
  · refine latestFile_none e d' (dirOk_tidy h2 e) (fun u hu => ?_)
    rw [Dict.mem_keys_iff, (h3 e).2.1 hl u] at hu
    cases hu
  · exact latestFile_congr e d d' (dirOk_tidy h e) (dirOk_tidy h2 e) ((h3 e).1 hl)

/-- C63, clearing: it removes all results of the experiment and no other file. -/
theorem C63_clear (e : List Char) (d : Files C) (h : Tidy e d.keys) :
    ∃ d', clearFiles e d = .ok d' ∧ (∀ t, d'.get? (resultName e t) = none) ∧
      ∀ f, (∀ t, f ≠ resultName e t) → d'.get? f = d.get? f := clearFiles_ok e d h

/-- C63, two saves of an experiment in the same second leave one result, the second. -/
theorem C63_same_second (e : List Char) (t : Int) (c c' : C) (d : Files C) :
    saveFile e t c' (saveFile e t c d) = saveFile e t c' d := by
  unfold saveFile
  apply Dict.ext
  show assocSet _ _ (assocSet _ _ _) = assocSet _ _ _
  generalize resultName e t = k
  generalize d.items = l
  induction l with
  | nil => simp [assocSet]
  | cons p l ih =>
    by_cases hk : p.1 = k
    · simp [assocSet, hk]
    · simp [assocSet, hk, ih]

/-- a history meeting the hypotheses: `pc` is run, `pc_2` is run twice, `pc` is run again and `pc_2` cleared -/
def exOps : List (FileOp Nat) :=
  [.save "pc".toList 10 1, .save "pc_2".toList 10 2, .save "pc_2".toList 12 3, .save "pc".toList 12 4, .clear "pc_2".toList]

example : ClockOk 10 exOps := by simp [exOps, ClockOk]
example : DirOk (C := Nat) 10 Dict.empty := fun f hf => by cases hf
example : lastOf "pc".toList exOps = some (some 4) ∧ lastOf "pc_2".toList exOps = some none := by
  constructor <;> decide +kernel

/-! ### C64 -/

/-- C64: in `execute` for all experiments, an experiment is skipped iff re-execution is not forced and its newest stored result
carries exactly the hashes of what it depends on now; a skipped experiment leaves the directory as it is. -/
theorem C64_skipped_iff [DecidableEq H] (env : Env O D H R C) (w : Ws O) (force : Bool) (n : String) (x : Experiment)
    (hx : w.experiments.get? n = some x) (s : St O C) :
    ((∃ s', executeOne env w force (n, x) s = (.ok false, s')) ↔
      force = false ∧ ∃ c stored ref a, latestFile n.toList s.world.files = .ok c ∧ env.decode c = .ok stored ∧
        w.pipelines.get? x.pipeline = some ref ∧ loadedIn env s ref = .ok a ∧
        Vars.validateVariableValues a.declared x.vars = .ok true ∧ CurrentHashes env w x a stored) ∧
    (∀ s', executeOne env w force (n, x) s = (.ok false, s') → s'.world = s.world) := by
  constructor
  · constructor
    · rintro ⟨s', h⟩
      obtain ⟨h1, h2⟩ := executeOne_false.1 h
      obtain ⟨c, st, h3, h4, h5⟩ := (needs_eq_false hx).1 h2
      obtain ⟨ref, a, steps, h6, h7, h8, -, -, h9⟩ := changed_eq_false.1 h5
      exact ⟨h1, c, st, ref, a, h3, h4, h6, h7, h8, h9⟩
    · rintro ⟨h1, c, st, ref, a, h3, h4, h6, h7, h8, h9⟩
      obtain ⟨steps, h10⟩ : ∃ steps, Vars.factorySteps a (some (Vars.resolveVariables a.declared x.vars)) = .ok steps := by
        obtain ⟨steps, _, _, _, h10, _⟩ := h9
        exact ⟨steps, h10⟩
      exact ⟨_, executeOne_false.2 ⟨h1, (needs_eq_false hx).2 ⟨c, st, h3, h4,
        changed_eq_false.2 ⟨ref, a, steps, h6, h7, h8, h10, rfl, h9⟩⟩⟩⟩
  · intro s' h
    rcases executeOne_ok h with ⟨-, -, h1⟩ | ⟨h1, -⟩
    · exact h1
    · cases h1

/-- C64, everything else is executed: an experiment that is not skipped is executed and its result saved, or the command
raises. -/
theorem C64_executed [DecidableEq H] (env : Env O D H R C) (w : Ws O) (force : Bool) (n : String) (x : Experiment) (s s' : St O C)
    (h : executeOne env w force (n, x) s = (.ok true, s')) :
    ∃ s1 s2 r, s1.world = s.world ∧ executeExperiment env w x s1 = (.ok r, s2) ∧
      s'.world = { s.world with files := saveFile n.toList (env.now n) (env.encode r) s.world.files } := by
  rcases executeOne_ok h with ⟨h1, -⟩ | ⟨-, h1⟩
  · cases h1
  · exact h1

/-- C64, what skipping is worth: if the stored result was made by an execution, hashes of pipelines and variables have no
collisions and equal digests of data mean equal runs, then the stored outcome is what running the present pipeline, with every
variable filled in, on the present data gives, and the stored variables are the present ones. -/
theorem C64_stored_outcome (env0 env : Env O D H R C) (w0 w : Ws O) (x0 x : Experiment) (s0 s0' : St O C) (r : Result H R)
    (a : Algorithm) (hr : executeExperiment env0 w0 x0 s0 = (.ok r, s0')) (hc : CurrentHashes env w x a r.hashes)
    (halg : ∀ p q, env0.algHash p = env.algHash q → p = q)
    (hvar : ∀ p q, env0.varsHash p = env.varsHash q → ∀ n, p.get? n = q.get? n)
    (hdata : ∀ d d' h, env0.digest d = .ok h → env.digest d' = .ok h → ∀ steps, env0.run steps d = env.run steps d') :
    (∀ n, r.vars.get? n = (Vars.resolveVariables a.declared x.vars).get? n) ∧
    ∃ steps lref d, Vars.factorySteps a (some (Vars.resolveVariables a.declared x.vars)) = .ok steps ∧
      w.dataloaders.get? x.dataloader = some lref ∧ env.loader lref = .ok d ∧ env.run steps d = .ok r.outcome := by
  obtain ⟨ref, a0, lref0, d0, steps0, o, hh, -, -, -, -, -, -, h7, h8, -, rfl⟩ := execute_eq_ok.1 hr
  obtain ⟨steps, lref, d, h, g1, g2, g3, g4, g5⟩ := hc
  simp only [Hashes.mk.injEq, Option.some.injEq] at g5
  obtain ⟨e1, e2, e3⟩ := g5
  have := halg _ _ e1
  simp only [Algorithm.mk.injEq] at this
  obtain ⟨-, rfl⟩ := this
  subst e2
  refine ⟨hvar _ _ e3, steps0, lref, d, g1, g2, g3, ?_⟩
  rw [← hdata d0 d hh h8 g4]
  exact h7

/-- C64, nothing changed: an experiment whose result has just been saved is skipped by the next command, if the experiment sets
some variable, its pipeline declares none, or refers to none. -/
theorem C64_unchanged_skipped_partial [DecidableEq H] (env : Env O D H R C) (w : Ws O) (n : String) (x : Experiment)
    (hx : w.experiments.get? n = some x) (world : World O C) (hdir : DirOk (env.now n) world.files) (r : Result H R)
    (s1 : St O C) (hr : executeExperiment env w x (fresh env world) = (.ok r, s1))
    (hread : env.decode (env.encode r) = .ok r.hashes)
    (hvars : ∀ ref a, w.pipelines.get? x.pipeline = some ref → env.algorithm ref.type ref.reference = .ok a →
      x.vars.items ≠ [] ∨ a.declared = [] ∨ Vars.Regular a.steps ∧ ∀ m, ¬ Vars.Refers a.steps m) :
    ∃ s', executeOne env w false (n, x)
      (fresh env { world with files := saveFile n.toList (env.now n) (env.encode r) world.files }) = (.ok false, s') := by
  obtain ⟨ref, a, lref, d, steps, o, hh, h1, h2, h3, h4, h5, h6, h7, h8, -, rfl⟩ := execute_eq_ok.1 hr
  have hl : env.algorithm ref.type ref.reference = .ok a := by
    unfold loadedIn fresh at h2
    split at h2
    · rename_i ht
      rw [ht]; exact h2
    · exact h2
  have hf := Vars.factory_own_eq_resolved a x.vars steps h3 h6 (hvars ref a h1 hl)
  refine ((C64_skipped_iff env w false n x hx _).1).2 ⟨rfl, _, _, ref, a, ?_, hread, h1, ?_, h3,
    steps, lref, d, hh, hf, h4, h5, h8, rfl⟩
  · have hd := dirOk_save hdir (le_refl _) n.toList (env.encode ⟨o, Vars.resolveVariables a.declared x.vars,
      ⟨some (env.algHash ⟨a.declared, steps⟩), some hh, some (env.varsHash (Vars.resolveVariables a.declared x.vars))⟩⟩)
    refine latestFile_newest n.toList _ (dirOk_tidy hd _) (env.now n) _ ?_ ?_
    · show (saveFile _ _ _ _).get? _ = _
      rw [get_saveFile, if_pos rfl]
    · intro u hu
      rcases hd _ hu with ⟨e2, u2, h9, h10⟩ | h9
      · rw [(resultName_inj h9).2]; exact h10
      · exact absurd (json_resultName _ u) h9
  · unfold loadedIn fresh
    split
    · rename_i ht
      rw [ht] at hl; exact hl
    · exact hl

/-- The full claim of C64 about unchanged inputs: a saved result is up to date for the next command. -/
def UnchangedSkipped [DecidableEq H] (env : Env O D H R C) (w : Ws O) (n : String) (x : Experiment) (world : World O C) : Prop :=
  ∀ r s1, executeExperiment env w x (fresh env world) = (.ok r, s1) → env.decode (env.encode r) = .ok r.hashes →
    ∃ s', executeOne env w false (n, x)
      (fresh env { world with files := saveFile n.toList (env.now n) (env.encode r) world.files }) = (.ok false, s')

/-- C64, the case left out: an experiment that sets no variable at all, although its pipeline declares
and uses some, is never up to
date.  (Its result was made with the references unfilled, and the check fills in the defaults.) -/
theorem C64_no_variables_reexecuted [DecidableEq H] (env : Env O D H R C) (w : Ws O) (n : String) (x : Experiment)
    (hx : w.experiments.get? n = some x) (world world' : World O C) (r : Result H R) (s1 s' : St O C)
    (hr : executeExperiment env w x (fresh env world) = (.ok r, s1))
    (hlatest : ∀ c, latestFile n.toList world'.files = .ok c → env.decode c = .ok r.hashes)
    (hinj : ∀ p q, env.algHash p = env.algHash q → p = q) (hempty : x.vars.items = [])
    (hrefs : ∀ ref a, w.pipelines.get? x.pipeline = some ref → env.algorithm ref.type ref.reference = .ok a →
      a.declared ≠ [] ∧ ∃ m, Vars.Refers a.steps m) :
    executeOne env w false (n, x) (fresh env world') ≠ (.ok false, s') := by
  intro h
  obtain ⟨-, c, st, ref', a', g1, g2, g3, g4, -, g6⟩ := ((C64_skipped_iff env w false n x hx _).1).1 ⟨s', h⟩
  obtain ⟨ref, a, lref, d, steps, o, hh, h1, h2, h3, h4, h5, h6, h7, h8, -, rfl⟩ := execute_eq_ok.1 hr
  have hl : env.algorithm ref.type ref.reference = .ok a := by
    unfold loadedIn fresh at h2
    split at h2
    · rename_i ht; rw [ht]; exact h2
    · exact h2
  have hl' : env.algorithm ref'.type ref'.reference = .ok a' := by
    unfold loadedIn fresh at g4
    split at g4
    · rename_i ht; rw [ht]; exact g4
    · exact g4
  rw [h1] at g3
  cases g3
  rw [hl] at hl'
  cases hl'
  have hst := hlatest c g1
  rw [g2] at hst
  injection hst with hst
  obtain ⟨steps', lref', d', hh', k1, -, -, -, k5⟩ := g6
  rw [hst] at k5
  simp only [Hashes.mk.injEq, Option.some.injEq] at k5
  have hsame := hinj _ _ k5.1
  simp only [Algorithm.mk.injEq] at hsame
  have hst2 : steps = a'.steps := by
    unfold Vars.factorySteps at h6
    simp only [hempty] at h6
    simpa using h6.symm
  obtain ⟨hdec, m, hm⟩ := hrefs ref' a' h1 hl
  rw [← hsame.2, hst2] at k1
  unfold Vars.factorySteps at k1
  simp only at k1
  split at k1
  · exact Vars.C55_no_reference_left _ _ _ k1 m hm
  · rename_i hlen
    have hnil : (Vars.resolveVariables a'.declared x.vars).items = [] := List.length_eq_zero_iff.1 (by omega)
    cases hd : a'.declared with
    | nil => exact hdec hd
    | cons y ys =>
      have h9 := (Vars.C54_resolved a'.declared x.vars y.name).1
      have h10 : (Vars.resolveVariables a'.declared x.vars).get? y.name = none := by
        unfold Dict.get?
        rw [hnil]
        rfl
      exact h9.1 h10 y (by rw [hd]; simp) rfl

/-! ### C65 -/

/-- C65: `update-variable` stores the value the text stands for, for the type of the variable, if the declared variable allows
it, and then changes nothing else; in all other cases the directory stays exactly as it was. -/
theorem C65_update [DecidableEq H] (env : Env O D H R C) (world : World O C) (e v text : String) :
    (∀ w x value, world.workspace = some w → Storable env w e v text x value → ∃ w',
      (Cmd.updateVariable e v text).run env world = (.ok (), { world with workspace := some w' }) ∧
        VariableSet w w' e v x value) ∧
    ((∀ w x value, world.workspace = some w → ¬ Storable env w e v text x value) →
      ((Cmd.updateVariable e v text).run env world).2 = world) := by
  constructor
  · rintro w x value hw ⟨h1, ref, a, first, inForce, h2, h3, h4, h5, h6, h7⟩
    refine ⟨storeVariable w e x v value, ?_, rfl, rfl, fun m hm => ?_, { x with vars := x.vars.set v value }, ?_, rfl, rfl, fun n => ?_⟩
    · exact update_run env hw h1 h2 h3 ((findVariable_iff _ _ _).2 h4) ((castTo_iff _ _ _ _).2 h5) h6 h7
    · show (w.experiments.set e _).get? m = _
      rw [Dict.get?_set, if_neg (fun h => hm h.symm)]
    · show (w.experiments.set e _).get? e = _
      rw [Dict.get?_set, if_pos rfl]
    · show (x.vars.set v value).get? n = _
      rw [Dict.get?_set]
      by_cases hn : v = n
      · rw [if_pos hn, if_pos hn.symm]
      · rw [if_neg hn, if_neg (fun h => hn h.symm)]
  · intro h
    by_contra hne
    obtain ⟨w, x, value, h1, h2⟩ := update_changes env world e v text hne
    exact h w x value h1 h2

/-- C65, flags: on a flag any text but the empty one means true, `"false"`, `"False"`, `"no"` and `"0"` included. -/
theorem C65_flag (pyFloat : String → Option Rat) (text : String) (value : Val) :
    Reads pyFloat .bool text value ↔ value = .bool (decide (text ≠ "")) := by
  constructor
  · rintro (_ | _ | _ | h | _)
    · simp [h]
    · simp
  · rintro rfl
    by_cases h : text = ""
    · subst h
      exact .empty
    · have := Reads.bool (pyFloat := pyFloat) h
      simpa [h] using this

/-- C65, numbers: the decimal text of every integer stands for that integer, with spaces, tabs and line ends around it too. -/
theorem C65_integer (pyFloat : String → Option Rat) (i : Int) (pre post : List Char)
    (hpre : ∀ c ∈ pre, c = ' ' ∨ c = '\t' ∨ c = '\n' ∨ c = '\r') (hpost : ∀ c ∈ post, c = ' ' ∨ c = '\t' ∨ c = '\n' ∨ c = '\r')
    (text : String) (h : text.toList = pre ++ showInt i ++ post) (value : Val) :
    Reads pyFloat .integer text value ↔ value = .int i := by
  have blank : ∀ c, (c = ' ' ∨ c = '\t' ∨ c = '\n' ∨ c = '\r') → isBlank c = true := by
    rintro c (rfl | rfl | rfl | rfl) <;> decide
  have hs : strip text.toList = showInt i := by
    rw [h]
    exact strip_blanks _ _ _ (fun c hc => blank c (hpre c hc)) (fun c hc => (showInt_chars i c hc).2.2)
      (fun c hc => blank c (hpost c hc))
  have hp : pyInt text.toList = some i := by
    have h2 := pyInt_showInt i
    unfold pyInt at h2 ⊢
    rw [hs, ← h2, strip_of_no_blank _ (fun c hc => (showInt_chars i c hc).2.2)]
  constructor
  · rintro (_ | h)
    rw [hp] at h
    cases h
    rfl
  · rintro rfl
    exact .integer hp

/-- the text `" -7\n"` -/
example : (" -7\n" : String).toList = [' '] ++ showInt (-7) ++ ['\n'] := by decide

/-! ### C74 -/

/-- The claim of C74 for one way of calling `execute`: whenever it succeeds on all experiments, the result stored for an
experiment that was executed is the one that executing it alone stores. -/
def AllAsAlone [DecidableEq H] (env : Env O D H R C) (world : World O C) (w : Ws O) (force : Bool) : Prop :=
  ∀ world', (Cmd.execute none force).run env world = (.ok (), world') →
    (∀ f, (∀ n x, w.experiments.get? n = some x → f ≠ resultName n.toList (env.now n)) →
      world'.files.get? f = world.files.get? f) ∧
    ∀ n x, w.experiments.get? n = some x →
      (force = false ∧ world'.files.get? (resultName n.toList (env.now n)) = world.files.get? (resultName n.toList (env.now n))) ∨
      ∃ alone, (Cmd.execute (some n) force).run env world = (.ok (), alone) ∧
        world'.files.get? (resultName n.toList (env.now n)) = alone.files.get? (resultName n.toList (env.now n)) ∧
        alone.files.get? (resultName n.toList (env.now n)) ≠ none

/-- C74: in a workspace whose pipelines are all given by a file or by the name of a supplied algorithm, executing everything
stores for each experiment what executing it alone stores.  (With python modules this is false, see `C74_module_leak`.) -/
theorem C74_all_as_alone_partial [DecidableEq H] (env : Env O D H R C) (world : World O C) (w : Ws O)
    (hw : world.workspace = some w) (hno : ∀ n ref, w.pipelines.get? n = some ref → ref.type ≠ .pythonModule) (force : Bool) :
    AllAsAlone env world w force := by
  intro world' h
  have hs : ∃ s', PyM.forEach w.experiments.items (fun p => do let _ ← executeOne env w force p; return ())
      ⟨world, env.algorithm .pythonModule⟩ = (.ok (), s') ∧ s'.world = world' := by
    have h1 : ((execute env none force ⟨world, env.algorithm .pythonModule⟩).1,
        (execute env none force ⟨world, env.algorithm .pythonModule⟩).2.world) = (.ok (), world') := h
    unfold execute at h1
    rw [PyM.bind_ok (current_run (s := ⟨world, env.algorithm .pythonModule⟩) hw)] at h1
    simp only [Prod.mk.injEq] at h1
    exact ⟨_, Prod.ext h1.1 rfl, h1.2⟩
  obtain ⟨s', hs, rfl⟩ := hs
  obtain ⟨h1, h2⟩ := executeAll_ok env w force hno w.experiments.items w.experiments.nodup _ _ hs
  refine ⟨fun f hf => h1 f (fun p hp => hf p.1 p.2 ((Dict.mem_items_iff _ _ _).1 hp)), fun n x hx => ?_⟩
  rcases h2 (n, x) ((Dict.mem_items_iff _ _ _).2 hx) with h3 | ⟨r, h3, h4⟩
  · exact Or.inl h3
  · obtain ⟨t', h5⟩ := h3 ⟨world, env.algorithm .pythonModule⟩
    have h6 := executeNamed_run env n force ⟨world, env.algorithm .pythonModule⟩ w hw x hx r t' h5
    refine Or.inr ⟨{ world with files := saveFile n.toList (env.now n) (env.encode r) world.files }, ?_, ?_, ?_⟩
    · show ((execute env (some n) force ⟨world, env.algorithm .pythonModule⟩).1,
        (execute env (some n) force ⟨world, env.algorithm .pythonModule⟩).2.world) = _
      rw [h6]
    · rw [h4, get_saveFile, if_pos rfl]
    · rw [get_saveFile, if_pos rfl]
      simp

/-! ### A workspace with a python module -/

def exLimit : Variable := ⟨"depth", .integer, .int 3, none⟩
def exModule : Algorithm := ⟨[exLimit], [.inst "Test" [("limit", .ref "depth")]]⟩

/-- the limit that the first step of a pipeline carries -/
def exLimitOf : List Obj → Option Val
  | .inst _ [(_, .val v)] :: _ => some v
  | _ => none

/-- one module, one data file; a run gives the limit of the first step, and hashes are what they are hashes of -/
def exEnv : Env Unit Nat (Option Val) (Option Val) (Option Val × Hashes (Option Val)) where
  slug s := s
  pyFloat _ := none
  algorithm t r := if t = .pythonModule ∧ r = "m.PIPELINE" then .ok exModule
    else if t = .file ∧ r = "p.yml" then .ok exModule else .error .importError
  available := Dict.empty
  loader _ := .ok 0
  digest _ := .ok none
  run steps _ := .ok (exLimitOf steps)
  algHash a := exLimitOf a.steps
  varsHash d := d.get? "depth"
  encode r := (r.outcome, r.hashes)
  decode c := .ok c.2
  now _ := 12

/-- two experiments that share the pipeline and differ in the variable -/
def exWs (t : RefType) (ref : String) : Ws Unit where
  pipelines := Dict.empty.set "p" ⟨t, ref⟩
  dataloaders := Dict.empty.set "d" ⟨.json, "data.json", none⟩
  experiments := (Dict.empty.set "a" ⟨"p", "d", Dict.empty.set "depth" (.int 2)⟩).set "b"
    ⟨"p", "d", Dict.empty.set "depth" (.int 7)⟩

def exWorld (t : RefType) (ref : String) : World Unit (Option Val × Hashes (Option Val)) := ⟨some (exWs t ref), Dict.empty⟩

/-- the outcome stored for an experiment -/
def exStored (n : String) (world : World Unit (Option Val × Hashes (Option Val))) : Option (Option Val) :=
  (world.files.get? (resultName n.toList 12)).map Prod.fst

/-- C74, python modules: two experiments of one module; executing everything runs the second with the first one's value, and
executing everything again finds both results up to date.  Executed alone, the second runs with its own value. -/
theorem C74_module_leak :
    ((Cmd.execute none false).run exEnv (exWorld .pythonModule "m.PIPELINE")).1.isOk = true ∧
    exStored "b" ((Cmd.execute none false).run exEnv (exWorld .pythonModule "m.PIPELINE")).2 = some (some (.int 2)) ∧
    exStored "b" ((Cmd.execute none false).run exEnv
      ((Cmd.execute none false).run exEnv (exWorld .pythonModule "m.PIPELINE")).2).2 = some (some (.int 2)) ∧
    exStored "b" ((Cmd.execute (some "b") false).run exEnv (exWorld .pythonModule "m.PIPELINE")).2 = some (some (.int 7)) := by
  refine ⟨?_, ?_, ?_, ?_⟩ <;> decide +kernel

/-- C74, the claim is false for python modules. -/
theorem C74_false_for_modules : ¬ AllAsAlone exEnv (exWorld .pythonModule "m.PIPELINE") (exWs .pythonModule "m.PIPELINE") false := by
  intro h
  obtain ⟨k1, k2, -, k4⟩ := C74_module_leak
  obtain ⟨-, h2⟩ := h _ (Prod.ext (x := ((Cmd.execute none false).run exEnv (exWorld .pythonModule "m.PIPELINE")))
      (y := (.ok (), ((Cmd.execute none false).run exEnv (exWorld .pythonModule "m.PIPELINE")).2)) (by
    cases hr : ((Cmd.execute none false).run exEnv (exWorld .pythonModule "m.PIPELINE")).1 with
    | ok u => rfl
    | error e => rw [hr] at k1; cases k1) rfl)
  unfold exStored at k2 k4
  rcases h2 "b" ⟨"p", "d", Dict.empty.set "depth" (.int 7)⟩ rfl with ⟨-, h3⟩ | ⟨alone, h3, h4, -⟩
  · have h5 : exEnv.now "b" = 12 := rfl
    rw [h5] at h3
    rw [h3] at k2
    cases k2
  · have h5 : exEnv.now "b" = 12 := rfl
    rw [h5] at h4
    rw [h3] at k4
    rw [h4, k4] at k2
    revert k2
    decide +kernel

/-! ### Cases meeting the hypotheses -/

/-- the workspace of the example is intact -/
example : Intact (exWs .file "p.yml") := by
  intro n x h
  unfold exWs at h
  simp only [Dict.get?_set] at h
  split at h
  · cases h; exact ⟨by decide +kernel, by decide +kernel⟩
  · split at h
    · cases h; exact ⟨by decide +kernel, by decide +kernel⟩
    · cases h

/-- with the same pipeline in a file there is no python module, and both experiments run with their own values -/
example : (∀ n ref, (exWs .file "p.yml").pipelines.get? n = some ref → ref.type ≠ .pythonModule) ∧
    exStored "a" ((Cmd.execute none false).run exEnv (exWorld .file "p.yml")).2 = some (some (.int 2)) ∧
    exStored "b" ((Cmd.execute none false).run exEnv (exWorld .file "p.yml")).2 = some (some (.int 7)) := by
  refine ⟨?_, ?_, ?_⟩
  · intro n ref h
    unfold exWs at h
    simp only [Dict.get?_set] at h
    split at h
    · cases h; simp
    · cases h
  · decide +kernel
  · decide +kernel

/-- an update that is stored: `" 5 "` for the integer variable -/
example : Storable exEnv (exWs .file "p.yml") "b" "depth" " 5 " ⟨"p", "d", Dict.empty.set "depth" (.int 7)⟩ (.int 5) :=
  ⟨rfl, ⟨.file, "p.yml"⟩, exModule, exLimit, exLimit, rfl, rfl, ⟨[], [], rfl, rfl, by simp⟩,
    .integer (by decide +kernel), ⟨[], [], rfl, rfl, by simp⟩, rfl, (fun cs h => by cases h)⟩

end Workspace
end Verif
