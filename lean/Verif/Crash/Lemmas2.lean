import Verif.Crash.Lemmas
import Verif.Crash.Spec

/-!
# Lemmas about interrupted sequences of operations, and about the journals of the commands
-/

namespace Verif
namespace Workspace
namespace Crash
variable {O D H R : Type}

/-- where an operation works -/
def Op.target : Op O → Place
  | .writeWorkspace _ _ => .workspace
  | .writeResult e t _ => .file (resultName e t)
  | .remove e t => .file (resultName e t)

/-- what is there afterwards -/
def Op.final (fmt : Format O) : Op O → Option Text
  | .writeWorkspace i w => some (fmt.write i w)
  | .writeResult _ _ c => some c
  | .remove _ _ => none

theorem apply_at (fmt : Format O) (op : Op O) (d : Disk) (x : Place) :
    (op.apply fmt d).at x = if op.target = x then op.final fmt else d.at x := by
  cases op with
  | writeWorkspace i w => cases x <;> simp [Op.apply, Disk.at, Op.target, Op.final]
  | writeResult e t c =>
    cases x with
    | workspace => simp [Op.apply, Disk.at, Op.target]
    | file f => simp [Op.apply, Disk.at, Op.target, Op.final, get_saveFile]
  | remove e t =>
    cases x with
    | workspace => simp [Op.apply, Disk.at, Op.target]
    | file f => simp [Op.apply, Disk.at, Op.target, Op.final, Dict.get?_del]

theorem torn_at (fmt : Format O) {op : Op O} {d d' : Disk} (h : op.Torn fmt d d') (x : Place) :
    (op.target ≠ x ∧ d'.at x = d.at x) ∨ (op.target = x ∧ CutOff (d'.at x) (op.final fmt)) := by
  cases h with
  | workspace i w p d hp =>
    cases x with
    | workspace => exact Or.inr ⟨rfl, p, _, rfl, rfl, hp⟩
    | file f => exact Or.inl ⟨by simp [Op.target], rfl⟩
  | result e t c p d hp =>
    cases x with
    | workspace => exact Or.inl ⟨by simp [Op.target], rfl⟩
    | file f =>
      by_cases hf : resultName e t = f
      · exact Or.inr ⟨by rw [← hf]; rfl, p, c, by simp [Disk.at, get_saveFile, hf], rfl, hp⟩
      · exact Or.inl ⟨by simp [Op.target, hf], by simp [Disk.at, get_saveFile, hf]⟩

/-- an interruption is a prefix of the operations, and perhaps a torn one -/
theorem interrupted_split (fmt : Format O) {ops : List (Op O)} {d d' : Disk} (h : Interrupted fmt ops d d') :
    ∃ done rest, ops = done ++ rest ∧ (d' = applyOps fmt done d ∨
      ∃ op rest', rest = op :: rest' ∧ op.Torn fmt (applyOps fmt done d) d') := by
  induction h with
  | between ops d => exact ⟨[], ops, rfl, Or.inl rfl⟩
  | @inside op ops d d' h => exact ⟨[], op :: ops, rfl, Or.inr ⟨op, ops, rfl, h⟩⟩
  | @later op ops d d' h ih =>
    obtain ⟨done, rest, rfl, h1⟩ := ih
    exact ⟨op :: done, rest, rfl, h1⟩

theorem interrupted_all (fmt : Format O) (ops : List (Op O)) (d : Disk) : Interrupted fmt ops d (applyOps fmt ops d) := by
  induction ops generalizing d with
  | nil => exact .between _ _
  | cons op ops ih => exact .later (ih _)

theorem applyOps_at (fmt : Format O) (ops : List (Op O)) (d : Disk) (x : Place) :
    ((∀ op ∈ ops, op.target ≠ x) ∧ (applyOps fmt ops d).at x = d.at x) ∨
      ∃ op ∈ ops, op.target = x ∧ (applyOps fmt ops d).at x = op.final fmt := by
  induction ops generalizing d with
  | nil => exact Or.inl ⟨(fun _ h => by cases h), rfl⟩
  | cons op ops ih =>
    show (_ ∧ (applyOps fmt ops (op.apply fmt d)).at x = _) ∨ ∃ o ∈ _, _ ∧ (applyOps fmt ops (op.apply fmt d)).at x = _
    rcases ih (op.apply fmt d) with ⟨h1, h2⟩ | ⟨o, h1, h2, h3⟩
    · rw [h2, apply_at]
      by_cases ho : op.target = x
      · exact Or.inr ⟨op, by simp, ho, by rw [if_pos ho]⟩
      · exact Or.inl ⟨(fun o hm => by rcases List.mem_cons.1 hm with rfl | hm; exacts [ho, h1 o hm]), by rw [if_neg ho]⟩
    · exact Or.inr ⟨o, by simp [h1], h2, h3⟩

/-- operations at the same place are the same -/
def Consistent (ops : List (Op O)) : Prop := ∀ op1 ∈ ops, ∀ op2 ∈ ops, op1.target = op2.target → op1 = op2

theorem interrupted_places (fmt : Format O) {ops : List (Op O)} {d d' : Disk} (h : Interrupted fmt ops d d') :
    ∃ cut : Option Place, ∀ x, d'.at x = d.at x ∨ (∃ op ∈ ops, op.target = x ∧ d'.at x = op.final fmt) ∨
      (cut = some x ∧ ∃ op ∈ ops, op.target = x ∧ CutOff (d'.at x) (op.final fmt)) := by
  obtain ⟨done, rest, he, hs⟩ := interrupted_split fmt h
  subst he
  clear h
  rcases hs with rfl | ⟨op, rest', rfl, h⟩
  · refine ⟨none, fun x => ?_⟩
    rcases applyOps_at fmt done d x with ⟨-, h⟩ | ⟨op, h1, h2, h3⟩
    · exact Or.inl h
    · exact Or.inr (Or.inl ⟨op, by simp [h1], h2, h3⟩)
  · refine ⟨some op.target, fun x => ?_⟩
    rcases torn_at fmt h x with ⟨h1, h2⟩ | ⟨h1, h2⟩
    · rw [h2]
      rcases applyOps_at fmt done d x with ⟨-, h⟩ | ⟨op, h1, h2, h3⟩
      · exact Or.inl h
      · exact Or.inr (Or.inl ⟨op, by simp [h1], h2, h3⟩)
    · exact Or.inr (Or.inr ⟨by rw [h1], op, by simp, h1, h2⟩)

theorem final_of_consistent (fmt : Format O) {ops : List (Op O)} (hc : Consistent ops) (d : Disk) {op : Op O} (hop : op ∈ ops) :
    (applyOps fmt ops d).at op.target = op.final fmt := by
  rcases applyOps_at fmt ops d op.target with ⟨h, -⟩ | ⟨o, h1, h2, h3⟩
  · exact absurd rfl (h op hop)
  · rw [h3, hc o h1 op hop h2]

theorem interrupted_oldNew (fmt : Format O) {ops : List (Op O)} (hc : Consistent ops) {d d' : Disk}
    (h : Interrupted fmt ops d d') : OldNewOrOneCut d (applyOps fmt ops d) d' := by
  obtain ⟨cut, h⟩ := interrupted_places fmt h
  refine ⟨cut, fun x => ?_⟩
  rcases h x with h | ⟨op, h1, rfl, h3⟩ | ⟨h0, op, h1, rfl, h3⟩
  · exact Or.inl h
  · exact Or.inr (Or.inl (by rw [h3, final_of_consistent fmt hc d h1]))
  · exact Or.inr (Or.inr ⟨h0, by rw [final_of_consistent fmt hc d h1]; exact h3⟩)

/-! ### Journals -/

/-- what `mj` adds to the journal satisfies `Q` -/
def Logs {α : Type} (mj : PyM (J O) α) (Q : List (Op O) → Prop) : Prop := ∀ j, ∃ ops, (mj j).2.log = j.log ++ ops ∧ Q ops

theorem logs_quiet_bind {α β : Type} {m : PyM (St O Text) α} {f : α → PyM (J O) β} {Q : List (Op O) → Prop} (hn : Q [])
    (h : ∀ a, Logs (f a) Q) : Logs (quiet m >>= f) Q := by
  intro j
  rw [PyM.bind_run]
  unfold quiet
  generalize m j.st = r
  obtain ⟨e | a, s⟩ := r
  · exact ⟨[], by simp, hn⟩
  · exact h a _

theorem logs_pure {α : Type} (a : α) {Q : List (Op O) → Prop} (hn : Q []) : Logs (O := O) (Pure.pure a) Q :=
  fun _ => ⟨[], by simp, hn⟩

theorem logs_ite {α : Type} (c : Prop) [Decidable c] {a b : PyM (J O) α} {Q : List (Op O) → Prop} (ha : Logs a Q)
    (hb : Logs b Q) : Logs (if c then a else b) Q := by
  split <;> assumption

theorem logs_write (w : Ws O) (i : Bool) {Q : List (Op O) → Prop} (h : Q [.writeWorkspace i w]) :
    Logs (writeWorkspaceJ w i) Q := fun _ => ⟨[.writeWorkspace i w], rfl, h⟩

theorem logs_bind {α β : Type} {m : PyM (J O) α} {f : α → PyM (J O) β} {P Q S : List (Op O) → Prop} (h : Logs m P)
    (hf : ∀ a, Logs (f a) Q) (hS : ∀ l, P l → S l) (hC : ∀ l1 l2, P l1 → Q l2 → S (l1 ++ l2)) : Logs (m >>= f) S := by
  intro j
  obtain ⟨ops, h1, h2⟩ := h j
  rw [PyM.bind_run]
  generalize m j = r at h1
  obtain ⟨e | a, s⟩ := r
  · exact ⟨ops, h1, hS _ h2⟩
  · obtain ⟨ops2, h3, h4⟩ := hf a s
    exact ⟨ops ++ ops2, by simp only [h3]; simp only at h1; rw [h1, List.append_assoc], hC _ _ h2 h4⟩

/-- at most one write of the workspace -/
def WritesOnce (ops : List (Op O)) : Prop := ops = [] ∨ ∃ i w, ops = [.writeWorkspace i w]

/-- results of one experiment are removed, and the workspace is written in the end -/
def ClearsAndWrites (n : String) (ops : List (Op O)) : Prop :=
  ∃ vs : List Int, ops = vs.map (Op.remove n.toList) ∨ ∃ w, ops = vs.map (Op.remove n.toList) ++ [.writeWorkspace false w]

/-- results of different experiments are written -/
def WritesResults (env : Env O D H R Text) (names : List String) (ops : List (Op O)) : Prop :=
  ∃ l : List (String × Result H R), (l.map Prod.fst).Sublist names ∧
    ops = l.map fun p => .writeResult p.1.toList (env.now p.1) (env.encode p.2)

theorem logs_clear (n : String) : Logs (O := O) (clearResultsJ n) (fun ops => ∃ vs : List Int, ops = vs.map (Op.remove n.toList)) := by
  intro j
  rw [clearResultsJ_run]
  cases loadVersions n.toList j.st.world.files.keys with
  | error e => exact ⟨[], by simp, [], rfl⟩
  | ok vs => exact ⟨_, rfl, vs, rfl⟩

theorem logs_executeOne [DecidableEq H] (env : Env O D H R Text) (w : Ws O) (force : Bool) (p : String × Experiment) :
    Logs (executeOneJ env w force p) (WritesResults env [p.1]) := by
  have h0 : WritesResults env [p.1] ([] : List (Op O)) := ⟨[], by simp, rfl⟩
  refine logs_quiet_bind h0 fun b => logs_ite _ (logs_pure _ h0) (logs_quiet_bind h0 fun r => ?_)
  intro j
  exact ⟨[.writeResult p.1.toList (env.now p.1) (env.encode r)], rfl, [(p.1, r)], by simp, rfl⟩

theorem logs_executeAll [DecidableEq H] (env : Env O D H R Text) (w : Ws O) (force : Bool) (l : List (String × Experiment)) :
    Logs (PyM.forEach l fun p => do
      let _ ← executeOneJ env w force p
      return ()) (WritesResults env (l.map Prod.fst)) := by
  induction l with
  | nil => exact logs_pure _ ⟨[], by simp, rfl⟩
  | cons p l ih =>
    rw [PyM.forEach_cons]
    refine logs_bind (P := WritesResults env [p.1]) (Q := WritesResults env (l.map Prod.fst)) ?_ (fun _ => ih) ?_ ?_
    · refine logs_bind (P := WritesResults env [p.1]) (Q := fun l => l = []) (logs_executeOne env w force p)
        (fun _ => logs_pure _ rfl) (fun _ h => h) ?_
      rintro l1 l2 h rfl
      simpa using h
    · rintro ops ⟨l1, h1, rfl⟩
      exact ⟨l1, h1.trans (by simp), rfl⟩
    · rintro ops1 ops2 ⟨l1, h1, rfl⟩ ⟨l2, h2, rfl⟩
      exact ⟨l1 ++ l2, by simpa using h1.append h2, by simp⟩

theorem logs_execute [DecidableEq H] (env : Env O D H R Text) (n : Option String) (force : Bool) (w : Ws O) (j : J O)
    (hw : j.st.world.workspace = some w) :
    ∃ ops, (executeJ env n force j).2.log = j.log ++ ops ∧ WritesResults env (w.experiments.keys) ops := by
  unfold executeJ
  have hq : quiet currentWorkspace j = (.ok w, j) := by
    unfold quiet
    rw [current_run hw]
  rw [PyM.bind_ok hq]
  cases n with
  | none => exact logs_executeAll env w force w.experiments.items j
  | some n =>
    simp only
    cases hx : w.experiments.get? n with
    | none => exact ⟨[], by simp, [], by simp, rfl⟩
    | some x =>
      refine logs_quiet_bind (Q := WritesResults env w.experiments.keys) ⟨[], by simp, rfl⟩ (fun r => ?_) j
      intro j
      refine ⟨[.writeResult n.toList (env.now n) (env.encode r)], rfl, [(n, r)], ?_, rfl⟩
      have : n ∈ w.experiments.keys := by rw [Dict.mem_keys_iff, hx]; rfl
      simpa using this

theorem execute_without [DecidableEq H] (env : Env O D H R Text) (n : Option String) (force : Bool) (j : J O)
    (hw : j.st.world.workspace = none) : (executeJ env n force j) = (.error .fileNotFound, j) := by
  unfold executeJ
  have hq : quiet currentWorkspace j = (.error .fileNotFound, j) := by
    unfold quiet currentWorkspace
    simp only [PyM.readE_run, hw]
  rw [PyM.bind_error hq]

theorem logs_other [DecidableEq H] (env : Env O D H R Text) (c : Cmd) :
    Logs (bodyJ env c) (fun ops => match c with
      | .removeExperiment n => ClearsAndWrites n ops
      | .clearExperiment n => ClearsAndWrites n ops
      | .execute _ _ => True
      | _ => WritesOnce ops) := by
  have hn : WritesOnce ([] : List (Op O)) := Or.inl rfl
  have hw : ∀ i (w : Ws O), WritesOnce [.writeWorkspace i w] := fun i w => Or.inr ⟨i, w, rfl⟩
  have hc : ∀ n (w' : Ws O), Logs (O := O) (do clearResultsJ n; writeWorkspaceJ w') (ClearsAndWrites n) := by
    intro n w'
    refine logs_bind (logs_clear n) (Q := fun ops => ops = [.writeWorkspace false w']) (fun _ => logs_write _ _ rfl)
      (fun l ⟨vs, h⟩ => ⟨vs, Or.inl h⟩) ?_
    rintro l1 l2 ⟨vs, rfl⟩ rfl
    exact ⟨vs, Or.inr ⟨w', rfl⟩⟩
  have hcn : ∀ n, ClearsAndWrites n ([] : List (Op O)) := fun n => ⟨[], Or.inl rfl⟩
  cases c with
  | init a => exact logs_quiet_bind hn fun w => logs_write _ _ (hw _ _)
  | addPipeline a => exact logs_quiet_bind hn fun w => logs_quiet_bind hn fun w' => logs_write _ _ (hw _ _)
  | removePipeline n =>
    exact logs_quiet_bind hn fun w => logs_ite _ (logs_pure _ hn) (logs_ite _ (logs_pure _ hn) (logs_write _ _ (hw _ _)))
  | addLoader a => exact logs_quiet_bind hn fun w => logs_write _ _ (hw _ _)
  | removeLoader n =>
    exact logs_quiet_bind hn fun w => logs_ite _ (logs_pure _ hn) (logs_ite _ (logs_pure _ hn) (logs_write _ _ (hw _ _)))
  | addExperiment a => exact logs_quiet_bind hn fun w => logs_quiet_bind hn fun w' => logs_write _ _ (hw _ _)
  | removeExperiment n => exact logs_quiet_bind (hcn n) fun w => logs_ite _ (logs_pure _ (hcn n)) (hc n _)
  | clearExperiment n => exact logs_quiet_bind (hcn n) fun w => logs_ite _ (logs_pure _ (hcn n)) (hc n _)
  | updateVariable e v t =>
    refine logs_quiet_bind hn fun w => ?_
    cases w.experiments.get? e with
    | none => exact logs_pure _ hn
    | some x =>
      refine logs_quiet_bind hn fun ref => logs_quiet_bind hn fun a => ?_
      cases findVariable a.declared v with
      | none => exact logs_pure _ hn
      | some d =>
        show Logs (match castTo env.pyFloat d.type t with
          | none => _
          | some v => _) _
        cases castTo env.pyFloat d.type t with
        | none => exact logs_pure _ hn
        | some v => exact logs_quiet_bind hn fun ok => logs_ite _ (logs_pure _ hn) (logs_write _ _ (hw _ _))
  | execute n f =>
    intro j
    obtain ⟨-, -, ops, h, -⟩ := sim_body env (.execute n f) j
    exact ⟨ops, h, trivial⟩

theorem consistent_writesOnce {ops : List (Op O)} (h : WritesOnce ops) : Consistent ops := by
  rcases h with rfl | ⟨i, w, rfl⟩
  · intro _ h; cases h
  · intro o1 h1 o2 h2 _
    rw [List.mem_singleton.1 h1, List.mem_singleton.1 h2]

theorem consistent_clears {n : String} {ops : List (Op O)} (h : ClearsAndWrites n ops) : Consistent ops := by
  obtain ⟨vs, h⟩ := h
  have key : ∀ op ∈ ops, (∃ v, op = .remove n.toList v) ∨ ∃ w, op = .writeWorkspace false w ∧
      ∀ op' ∈ ops, op'.target = .workspace → op' = op := by
    intro op hop
    rcases h with rfl | ⟨w, rfl⟩
    · obtain ⟨v, -, rfl⟩ := List.mem_map.1 hop
      exact Or.inl ⟨v, rfl⟩
    · rcases List.mem_append.1 hop with hop | hop
      · obtain ⟨v, -, rfl⟩ := List.mem_map.1 hop
        exact Or.inl ⟨v, rfl⟩
      · refine Or.inr ⟨w, List.mem_singleton.1 hop, fun op' hop' ht => ?_⟩
        rcases List.mem_append.1 hop' with hop' | hop'
        · obtain ⟨v, -, rfl⟩ := List.mem_map.1 hop'
          cases ht
        · rw [List.mem_singleton.1 hop, List.mem_singleton.1 hop']
  intro o1 h1 o2 h2 ht
  rcases key o1 h1 with ⟨v1, rfl⟩ | ⟨w1, rfl, hu⟩
  · rcases key o2 h2 with ⟨v2, rfl⟩ | ⟨w2, rfl, -⟩
    · have := (resultName_inj (Place.file.inj ht)).2
      rw [this]
    · cases ht
  · exact (hu o2 h2 ht.symm).symm

theorem consistent_results {env : Env O D H R Text} {names : List String} (hn : names.Nodup) {ops : List (Op O)}
    (h : WritesResults env names ops) : Consistent ops := by
  obtain ⟨l, h1, rfl⟩ := h
  have hnd := h1.nodup hn
  intro o1 h1 o2 h2 ht
  obtain ⟨p1, hp1, rfl⟩ := List.mem_map.1 h1
  obtain ⟨p2, hp2, rfl⟩ := List.mem_map.1 h2
  have he := (resultName_inj (Place.file.inj ht)).1
  have : p1 = p2 := List.inj_on_of_nodup_map hnd hp1 hp2 (String.toList_inj.1 he)
  rw [this]

/-- the journals of all commands -/
theorem journal_shape [DecidableEq H] (fmt : Format O) (env : Env O D H R Text) (c : Cmd) (d : Disk) :
    match c with
      | .removeExperiment n => ClearsAndWrites n (journal fmt env c d).2
      | .clearExperiment n => ClearsAndWrites n (journal fmt env c d).2
      | .execute _ _ => (journal fmt env c d).2 = [] ∨ ∃ t w, d.workspace = some t ∧ fmt.parse t = .ok w ∧
          WritesResults env w.experiments.keys (journal fmt env c d).2
      | _ => WritesOnce (journal fmt env c d).2 := by
  unfold journal
  cases hr : readDisk fmt c d with
  | error e =>
    have hn : WritesOnce ([] : List (Op O)) := Or.inl rfl
    have hcn : ∀ n, ClearsAndWrites n ([] : List (Op O)) := fun n => ⟨[], Or.inl rfl⟩
    cases c <;> first | exact hn | exact hcn _ | exact Or.inl rfl
  | ok w =>
    obtain ⟨ops, h1, h2⟩ := logs_other env c ⟨⟨w, env.algorithm .pythonModule⟩, []⟩
    rw [List.nil_append] at h1
    cases c with
    | execute n f =>
      simp only
      unfold readDisk at hr
      cases hd : d.workspace with
      | none =>
        rw [hd] at hr
        cases hr
        refine Or.inl ?_
        show (executeJ env n f _).2.log = []
        rw [execute_without]
        rfl
      | some t =>
        rw [hd] at hr
        simp only at hr
        cases hp : fmt.parse t with
        | error e => rw [hp] at hr; simp only at hr; cases hr
        | ok w' =>
          rw [hp] at hr
          cases hr
          obtain ⟨ops, h3, h4⟩ := logs_execute env n f w' ⟨⟨⟨some w', d.files⟩, env.algorithm .pythonModule⟩, []⟩ rfl
          rw [List.nil_append] at h3
          refine Or.inr ⟨t, w', rfl, hp, ?_⟩
          show WritesResults env _ (executeJ env n f _).2.log
          rw [h3]
          exact h4
    | _ => simp only at h2 ⊢; rw [h1]; exact h2

theorem journal_consistent [DecidableEq H] (fmt : Format O) (env : Env O D H R Text) (c : Cmd) (d : Disk) :
    Consistent (journal fmt env c d).2 := by
  have h := journal_shape fmt env c d
  cases c with
  | removeExperiment n => exact consistent_clears h
  | clearExperiment n => exact consistent_clears h
  | execute n f =>
    rcases h with h | ⟨t, w, -, -, h⟩
    · rw [h]; intro _ h; cases h
    · exact consistent_results w.experiments.nodup h
  | _ => exact consistent_writesOnce h

end Crash
end Workspace
end Verif
