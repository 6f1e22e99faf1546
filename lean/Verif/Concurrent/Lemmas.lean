import Verif.Concurrent.Spec
import Verif.Workspace.DiffLemmas

/-!
# Lemmas about requests and commands at the same time
-/

namespace Verif
namespace Workspace
namespace Concurrent
open Crash (Text Op J bodyJ Op.act)
variable {O D H R C : Type}

theorem tidy_apply (e : List Char) (x : Change C) (d : Files C) (h : Tidy e d.keys) : Tidy e (x.apply d).keys := by
  intro f hf
  have hm := (Dict.mem_keys_iff _ _).1 hf
  cases x with
  | write e' t c =>
    unfold Change.apply at hm
    rw [Dict.get?_set] at hm
    by_cases hr : resultName e' t = f
    · exact Or.inl ⟨e', t, hr.symm⟩
    · rw [if_neg hr] at hm
      exact h f ((Dict.mem_keys_iff _ _).2 hm)
  | remove e' t =>
    unfold Change.apply at hm
    rw [Dict.get?_del] at hm
    by_cases hr : resultName e' t = f
    · rw [if_pos hr] at hm; cases hm
    · rw [if_neg hr] at hm
      exact h f ((Dict.mem_keys_iff _ _).2 hm)

theorem tidy_after (e : List Char) (l : List (Change C)) (d : Files C) (h : Tidy e d.keys) : Tidy e (after l d).keys := by
  induction l generalizing d with
  | nil => exact h
  | cons x l ih => exact ih _ (tidy_apply e x d h)

/-- changes of other experiments do not matter -/
theorem after_other (e : List Char) (l : List (Change C)) (d : Files C) (h : ∀ x ∈ l, x.experiment ≠ e) (t : Int) :
    (after l d).get? (resultName e t) = d.get? (resultName e t) := by
  induction l generalizing d with
  | nil => rfl
  | cons x l ih =>
    show (after l (x.apply d)).get? _ = _
    rw [ih _ fun y hy => h y (by simp [hy])]
    have hx := h x (by simp)
    cases x with
    | write e' u c =>
      change e' ≠ e at hx
      unfold Change.apply
      rw [Dict.get?_set, if_neg fun he => hx (resultName_inj he).1]
    | remove e' u =>
      change e' ≠ e at hx
      unfold Change.apply
      rw [Dict.get?_del, if_neg fun he => hx (resultName_inj he).1]

/-- the first version listed is the newest -/
theorem versions_newest (e : String) (d : Files C) (h : Tidy e.toList d.keys) (t : Int) (c : C) (hn : IsNewest e d t c) :
    ∃ vs, loadVersions e.toList d.keys = .ok (t :: vs) := by
  obtain ⟨vs, h1, h2, h3⟩ := loadVersions_ok e.toList d.keys h d.nodup_keys
  have hm : t ∈ vs := (h2 t).2 ((Dict.mem_keys_iff _ _).2 (by rw [hn.1]; rfl))
  cases vs with
  | nil => cases hm
  | cons v vs =>
    have hv := hn.2 v (Option.isSome_iff_ne_none.1 ((Dict.mem_keys_iff _ _).1 ((h2 v).1 (by simp))))
    rcases List.mem_cons.1 hm with rfl | hm
    · exact ⟨vs, h1⟩
    · have := (List.pairwise_cons.1 h3).1 t hm
      omega

theorem versions_none (e : String) (d : Files C) (h : Tidy e.toList d.keys) (hn : ∀ t, d.get? (resultName e.toList t) = none) :
    loadVersions e.toList d.keys = .ok [] := by
  obtain ⟨vs, h1, h2, -⟩ := loadVersions_ok e.toList d.keys h d.nodup_keys
  cases vs with
  | nil => exact h1
  | cons v vs =>
    have := (Dict.mem_keys_iff _ _).1 ((h2 v).1 (by simp))
    rw [hn v] at this
    cases this

theorem mem_versions (e : String) (d : Files C) (h : Tidy e.toList d.keys) :
    ∃ vs, loadVersions e.toList d.keys = .ok vs ∧ ∀ t, t ∈ vs ↔ d.get? (resultName e.toList t) ≠ none := by
  obtain ⟨vs, h1, h2, -⟩ := loadVersions_ok e.toList d.keys h d.nodup_keys
  refine ⟨vs, h1, fun t => ?_⟩
  rw [h2, Dict.mem_keys_iff, Option.isSome_iff_ne_none]

/-! ### Commands -/

/-- the operations of a command tell what it does alone -/
theorem run_operations [DecidableEq H] (env : Env O D H R Text) (c : Cmd) (world : World O Text) :
    (c.run env world).2 = (operations env c world).foldl (fun x op => op.act x) world := by
  obtain ⟨-, h2, ops, h3, h4⟩ := Crash.sim_body env c ⟨⟨world, env.algorithm .pythonModule⟩, []⟩
  have : operations env c world = ops := by
    unfold operations
    rw [h3]
    simp
  rw [this, ← h4]
  rfl

theorem removes_workspace (n : List Char) (vs : List Int) (x : World O Text) :
    ((vs.map (Op.remove n)).foldl (fun x op => op.act x) x).workspace = x.workspace := by
  rw [Crash.foldl_act_remove]

/-- `execute` does not write the workspace -/
theorem operations_execute [DecidableEq H] (env : Env O D H R Text) (n : Option String) (f : Bool) (world : World O Text) (i : Bool)
    (w : Ws O) : Op.writeWorkspace i w ∉ operations env (.execute n f) world := by
  intro h
  cases hw : world.workspace with
  | none =>
    have hx := Crash.execute_without env n f ⟨⟨world, env.algorithm .pythonModule⟩, []⟩ hw
    have : operations env (.execute n f) world = [] := by
      show (Crash.executeJ env n f _).2.log = _
      rw [hx]
    rw [this] at h
    cases h
  | some w0 =>
    obtain ⟨ops', h3, l, -, h4⟩ := Crash.logs_execute env n f w0 ⟨⟨world, env.algorithm .pythonModule⟩, []⟩ hw
    have : operations env (.execute n f) world = ops' := by
      show (Crash.executeJ env n f _).2.log = _
      rw [h3, List.nil_append]
    rw [this, h4] at h
    obtain ⟨p, -, hp⟩ := List.mem_map.1 h
    cases hp

/-- a command writes only the workspace it leaves -/
theorem operations_written [DecidableEq H] (env : Env O D H R Text) (c : Cmd) (world : World O Text) (i : Bool) (w : Ws O)
    (h : Op.writeWorkspace i w ∈ operations env c world) : (c.run env world).2.workspace = some w := by
  rw [run_operations]
  have once : ∀ ops : List (Op O), Crash.WritesOnce ops → Op.writeWorkspace i w ∈ ops →
      (ops.foldl (fun x op => op.act x) world).workspace = some w := by
    intro ops ho hm
    rcases ho with rfl | ⟨i', w', rfl⟩
    · cases hm
    · rw [List.mem_singleton] at hm
      injection hm with _ hw
      rw [hw]
      rfl
  have clears : ∀ n (ops : List (Op O)), Crash.ClearsAndWrites n ops → Op.writeWorkspace i w ∈ ops →
      (ops.foldl (fun x op => op.act x) world).workspace = some w := by
    intro n ops ho hm
    obtain ⟨vs, rfl | ⟨w', rfl⟩⟩ := ho
    · obtain ⟨v, -, hv⟩ := List.mem_map.1 hm
      cases hv
    · rcases List.mem_append.1 hm with hm | hm
      · obtain ⟨v, -, hv⟩ := List.mem_map.1 hm
        cases hv
      · rw [List.mem_singleton] at hm
        injection hm with _ hw
        rw [hw, List.foldl_append]
        rfl
  have hlog : ∀ ops, (bodyJ env c ⟨⟨world, env.algorithm .pythonModule⟩, []⟩).2.log = ([] : List (Op O)) ++ ops →
      operations env c world = ops := by
    intro ops ho
    unfold operations
    rw [ho, List.nil_append]
  obtain ⟨ops, h1, h2⟩ := Crash.logs_other env c ⟨⟨world, env.algorithm .pythonModule⟩, []⟩
  have he := hlog ops h1
  cases c with
  | removeExperiment n => exact clears n _ (by rw [he]; exact h2) h
  | clearExperiment n => exact clears n _ (by rw [he]; exact h2) h
  | execute n f => exact absurd h (operations_execute env n f world i w)
  | _ => exact once _ (by rw [he]; exact h2) h

/-- a property of workspace files that each of the commands preserves alone -/
def PreservedAlone (D H R : Type) [DecidableEq H] (allowed : Cmd → Prop) (P : Option (Ws O) → Prop) : Prop :=
  ∀ (env : Env O D H R Text) (c : Cmd) (world : World O Text), allowed c → P world.workspace → P (c.run env world).2.workspace

/-- the workspace has the property, and so has every workspace that is still to be written -/
def Sys.Has (P : Option (Ws O) → Prop) (s : Sys O) : Prop :=
  P s.world.workspace ∧ ∀ ops ∈ s.pending, ∀ i w, Op.writeWorkspace i w ∈ ops → P (some w)

theorem has_step [DecidableEq H] {allowed : Cmd → Prop} {P : Option (Ws O) → Prop} (hP : PreservedAlone D H R allowed P)
    {s t : Sys O} (h : Step D H R allowed s t)
    (hs : s.Has P) : t.Has P := by
  cases h with
  | start env c found _ hc =>
    refine ⟨hs.1, fun ops ho i w hw => ?_⟩
    rcases List.mem_append.1 ho with ho | ho
    · exact hs.2 ops ho i w hw
    · rw [List.mem_singleton] at ho
      subst ho
      rw [← operations_written env c _ i w hw]
      exact hP env c _ hc hs.1
  | act world pre post op ops =>
    have hmem : ∀ ops' ∈ pre ++ ops :: post, ∀ i w, Op.writeWorkspace i w ∈ ops' → P (some w) := by
      intro ops' ho i w hw
      rcases List.mem_append.1 ho with ho | ho
      · exact hs.2 ops' (by simp [ho]) i w hw
      · rcases List.mem_cons.1 ho with rfl | ho
        · exact hs.2 (op :: ops') (by simp) i w (by simp [hw])
        · exact hs.2 ops' (by simp [ho]) i w hw
    refine ⟨?_, hmem⟩
    cases op with
    | writeWorkspace i w => exact hs.2 (.writeWorkspace i w :: ops) (by simp) i w (by simp)
    | writeResult e t c => exact hs.1
    | remove e t => exact hs.1
  | stop world pre post ops =>
    refine ⟨hs.1, fun ops' ho i w hw => hs.2 ops' ?_ i w hw⟩
    rcases List.mem_append.1 ho with ho | ho <;> simp [ho]

theorem has_steps [DecidableEq H] {allowed : Cmd → Prop} {P : Option (Ws O) → Prop} (hP : PreservedAlone D H R allowed P)
    {s t : Sys O} (h : Steps D H R allowed s t)
    (hs : s.Has P) : t.Has P := by
  induction h with
  | refl s => exact hs
  | step h _ ih => exact ih (has_step hP h hs)

theorem steps_trans [DecidableEq H] {allowed : Cmd → Prop} {s t u : Sys O} (h : Steps D H R allowed s t)
    (h' : Steps D H R allowed t u) : Steps D H R allowed s u := by
  induction h with
  | refl s => exact h'
  | step h _ ih => exact .step h (ih h')

/-- a command performs all its operations without a break -/
theorem steps_all [DecidableEq H] {allowed : Cmd → Prop} (pre post : List (List (Op O))) (ops : List (Op O)) (world : World O Text) :
    Steps D H R allowed ⟨world, pre ++ ops :: post⟩ ⟨ops.foldl (fun x op => op.act x) world, pre ++ [] :: post⟩ := by
  induction ops generalizing world with
  | nil => exact .refl _
  | cons op ops ih => exact .step (.act world pre post op ops) (ih _)

/-- what `clear` does -/
theorem operations_clear [DecidableEq H] (env : Env O D H R Text) (n : String) (world : World O Text) (w : Ws O)
    (hw : world.workspace = some w) (hn : w.experiments.has n = true) (ht : Tidy n.toList world.files.keys) :
    ∃ vs : List Int, operations env (.clearExperiment n) world = vs.map (Op.remove n.toList) ++ [.writeWorkspace false w] := by
  obtain ⟨vs, hv, -⟩ := loadVersions_ok n.toList _ ht world.files.nodup_keys
  refine ⟨vs, ?_⟩
  show (Crash.clearExperimentJ n _).2.log = _
  unfold Crash.clearExperimentJ
  have hq : Crash.quiet currentWorkspace (⟨⟨world, env.algorithm .pythonModule⟩, []⟩ : J O) =
      (.ok w, ⟨⟨world, env.algorithm .pythonModule⟩, []⟩) := by
    unfold Crash.quiet
    rw [current_run hw]
  rw [PyM.bind_ok hq, if_neg (by simp [hn])]
  have hc := Crash.clearResultsJ_run n (⟨⟨world, env.algorithm .pythonModule⟩, []⟩ : J O)
  simp only [hv] at hc
  rw [PyM.bind_ok hc]
  rfl

end Concurrent
end Workspace
end Verif
