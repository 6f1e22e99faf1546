import Verif.Workspace.Lemmas6

/-!
# Lemmas about updating a variable
-/

namespace Verif
namespace Workspace
open Vars (Val VarType Obj Algorithm Variable)
variable {O D H R C : Type}

theorem findVariable_iff (declared : List Variable) (n : String) (x : Variable) :
    findVariable declared n = some x ↔ FirstDeclares declared n x := by
  unfold findVariable FirstDeclares
  rw [List.find?_eq_some_iff_append]
  constructor
  · rintro ⟨h1, before, after, h2, h3⟩
    exact ⟨before, after, h2, by simpa using h1, fun y hy => by simpa using h3 y hy⟩
  · rintro ⟨before, after, h2, h1, h3⟩
    exact ⟨by simpa using h1, before, after, h2, fun y hy => by simpa using h3 y hy⟩

theorem castTo_iff (pyFloat : String → Option Rat) (t : VarType) (s : String) (v : Val) :
    castTo pyFloat t s = some v ↔ Reads pyFloat t s v := by
  cases t with
  | string =>
    constructor
    · intro h; cases h; exact .string s
    · rintro ⟨⟩; rfl
  | integer =>
    unfold castTo
    constructor
    · intro h
      rw [Option.map_eq_some_iff] at h
      obtain ⟨i, h1, rfl⟩ := h
      exact .integer h1
    · rintro (_ | h)
      exact congrArg (Option.map Val.int) h
  | float =>
    unfold castTo
    constructor
    · intro h
      rw [Option.map_eq_some_iff] at h
      obtain ⟨i, h1, rfl⟩ := h
      exact .float h1
    · rintro (_ | _ | h)
      exact congrArg (Option.map Val.float) h
  | bool =>
    constructor
    · intro h
      cases h
      by_cases h : s = ""
      · subst h; exact .empty
      · rw [decide_eq_true h]; exact .bool h
    · rintro (_ | _ | _ | h | _)
      · simp only [castTo, decide_eq_true h]
      · rfl

theorem fresh_loaded (env : Env O D H R C) (world : World O C) (ref : PipelineRef) :
    loadedIn env ⟨world, env.algorithm .pythonModule⟩ ref = env.algorithm ref.type ref.reference := by
  unfold loadedIn
  split
  · rename_i h
    rw [h]
  · rfl

theorem validate_one (declared : List Variable) (n : String) (v : Val) :
    (Vars.validateVariableValues declared (Dict.empty.set n v) = .ok true ↔
      ∃ x, Vars.Declares declared n x ∧ Vars.Allowed x v) := by
  rw [(Vars.C53_validation declared _).1]
  constructor
  · intro h
    exact h n v (by rw [Dict.get?_set, if_pos rfl])
  · intro h m u hm
    rw [Dict.get?_set] at hm
    split at hm
    · rename_i he
      cases hm
      exact he ▸ h
    · cases hm

/-- a successful update -/
theorem update_run [DecidableEq H] (env : Env O D H R C) {world : World O C} {w : Ws O} {e v text : String} {x : Experiment}
    {ref : PipelineRef} {a : Algorithm} {d d' : Variable} {value : Val} (hw : world.workspace = some w)
    (h1 : w.experiments.get? e = some x) (h2 : w.pipelines.get? x.pipeline = some ref)
    (h3 : env.algorithm ref.type ref.reference = .ok a) (h4 : findVariable a.declared v = some d)
    (h5 : castTo env.pyFloat d.type text = some value) (h6 : Vars.Declares a.declared v d') (h7 : Vars.Allowed d' value) :
    (Cmd.updateVariable e v text).run env world =
      (.ok (), { world with workspace := some (storeVariable w e x v value) }) := by
  show ((Workspace.updateVariable env e v text _).1, (Workspace.updateVariable env e v text _).2.world) = _
  have h8 := (validate_one a.declared v value).2 ⟨d', h6, h7⟩
  unfold Workspace.updateVariable
  rw [PyM.bind_ok (current_run (s := ⟨world, env.algorithm .pythonModule⟩) hw)]
  simp only [h1]
  rw [PyM.bind_ok (item_eq_ok.2 ⟨h2, rfl⟩), PyM.bind_ok (load_eq_ok.2 ⟨(fresh_loaded env world ref).trans h3, rfl⟩)]
  simp only [h4, h5]
  rw [PyM.bind_ok (lift_eq_ok.2 ⟨h8, rfl⟩)]
  rfl

/-- only then does anything change -/
theorem update_changes [DecidableEq H] (env : Env O D H R C) (world : World O C) (e v text : String)
    (h : ((Cmd.updateVariable e v text).run env world).2 ≠ world) :
    ∃ w x value, world.workspace = some w ∧ Storable env w e v text x value := by
  replace h : (Workspace.updateVariable env e v text ⟨world, env.algorithm .pythonModule⟩).2.world ≠ world := h
  unfold Workspace.updateVariable at h
  cases hw : world.workspace with
  | none =>
    have : currentWorkspace (O := O) (C := C) ⟨world, env.algorithm .pythonModule⟩ =
        (.error .fileNotFound, ⟨world, env.algorithm .pythonModule⟩) := by
      unfold currentWorkspace
      rw [PyM.readE_run]
      simp only [hw]
    rw [PyM.bind_run, this] at h
    exact absurd rfl h
  | some w =>
    rw [PyM.bind_ok (current_run (s := ⟨world, env.algorithm .pythonModule⟩) hw)] at h
    cases h1 : w.experiments.get? e with
    | none => simp only [h1] at h; exact absurd rfl h
    | some x =>
      simp only [h1] at h
      cases h2 : w.pipelines.get? x.pipeline with
      | none => unfold item at h; simp only [h2] at h; exact absurd rfl h
      | some ref =>
        rw [PyM.bind_ok (item_eq_ok.2 ⟨h2, rfl⟩)] at h
        cases h3 : env.algorithm ref.type ref.reference with
        | error err =>
          rw [PyM.bind_run, load_run, fresh_loaded, h3] at h
          exact absurd rfl h
        | ok a =>
          rw [PyM.bind_ok (load_eq_ok.2 ⟨(fresh_loaded env world ref).trans h3, rfl⟩)] at h
          cases h4 : findVariable a.declared v with
          | none => simp only [h4] at h; exact absurd rfl h
          | some d =>
            simp only [h4] at h
            cases h5 : castTo env.pyFloat d.type text with
            | none => simp only [h5] at h; exact absurd rfl h
            | some value =>
              simp only [h5] at h
              by_cases h6 : Vars.validateVariableValues a.declared (Dict.empty.set v value) = .ok true
              · obtain ⟨d', h7, h8⟩ := (validate_one _ _ _).1 h6
                exact ⟨w, x, value, rfl, h1, ref, a, d, d', h2, h3, (findVariable_iff _ _ _).1 h4, (castTo_iff _ _ _ _).1 h5,
                  h7, h8⟩
              · rw [(Vars.C53_validation a.declared _).2 h6] at h
                exact absurd rfl h

end Workspace
end Verif
