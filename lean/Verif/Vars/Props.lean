import Verif.Vars.Lemmas2

/-!
# C53-C56: variables
-/

namespace Verif
namespace Vars

/-- C53: `validate_variable_values` returns `True` iff every supplied name is declared and its value is allowed by the
declaration in force; in every other case it raises `ValueError`. -/
theorem C53_validation (declared : List Variable) (values : Dict String Val) :
    (validateVariableValues declared values = .ok true ↔
      ∀ n v, values.get? n = some v → ∃ x, Declares declared n x ∧ Allowed x v) ∧
    (validateVariableValues declared values ≠ .ok true →
      validateVariableValues declared values = .error .valueError) := by
  obtain ⟨h1, h2⟩ := validateItems_ok (byName declared) values.items
  refine ⟨?_, h2⟩
  unfold validateVariableValues
  rw [h1]
  simp only [Dict.mem_items_iff, byName_get]

/-- C53, types: a boolean is not accepted for an integer variable, nor an integer for a float variable. -/
theorem C53_strict_types (x : Variable) :
    (x.type = .integer → ∀ b, ¬ Allowed x (.bool b)) ∧ (x.type = .float → ∀ i, ¬ Allowed x (.int i)) := by
  refine ⟨fun h b ha => ?_, fun h i ha => ?_⟩
  · have := ha.1
    rw [h] at this
    cases this
  · have := ha.1
    rw [h] at this
    cases this

/-- C54: `resolve_variables` has a value for exactly the declared names: the user's value if there is one, else the default of
the declaration in force.  Undeclared user entries have no influence. -/
theorem C54_resolved (declared : List Variable) (values : Dict String Val) (n : String) :
    ((resolveVariables declared values).get? n = none ↔ ∀ x ∈ declared, x.name ≠ n) ∧
    (∀ x, Declares declared n x →
      (resolveVariables declared values).get? n = some ((values.get? n).getD x.value)) := by
  constructor
  · rw [resolveVariables_get, ← byName_none]
    cases (byName declared).get? n <;> simp
  · intro x hx
    rw [resolveVariables_get, (byName_get declared n x).2 hx]

/-- C54, undeclared entries: two dictionaries that agree on the declared names resolve to the same values. -/
theorem C54_undeclared_ignored (declared : List Variable) (v w : Dict String Val)
    (h : ∀ x ∈ declared, v.get? x.name = w.get? x.name) : resolveVariables declared v = resolveVariables declared w := by
  unfold resolveVariables
  generalize (Dict.empty : Dict String Val) = d
  induction declared generalizing d with
  | nil => rfl
  | cons x l ih =>
    rw [List.foldl_cons, List.foldl_cons, h x (by simp)]
    exact ih (fun y hy => h y (by simp [hy])) _

/-- C54 and C53 together: validated user values and valid defaults resolve to allowed values. -/
theorem C54_allowed (declared : List Variable) (values : Dict String Val)
    (hd : ∀ x ∈ declared, Allowed x x.value) (hv : validateVariableValues declared values = .ok true)
    (n : String) (v : Val) (h : (resolveVariables declared values).get? n = some v) :
    ∃ x, Declares declared n x ∧ Allowed x v := by
  have hsome : (byName declared).get? n ≠ none := by
    intro hn
    rw [resolveVariables_get, hn] at h
    cases h
  obtain ⟨x, hx⟩ := Option.ne_none_iff_exists'.1 hsome
  have hx' := (byName_get declared n x).1 hx
  rw [(C54_resolved declared values n).2 x hx'] at h
  refine ⟨x, hx', ?_⟩
  cases hu : values.get? n with
  | none =>
    rw [hu] at h
    cases h
    obtain ⟨b, a, e, -, -⟩ := hx'
    exact hd x (by rw [e]; simp)
  | some u =>
    rw [hu] at h
    cases h
    obtain ⟨y, hy, hay⟩ := (C53_validation declared values).1.1 hv n _ hu
    rw [(byName_get declared n y).2 hy] at hx
    cases hx
    exact hay

/-- C55: if resolving succeeds, the pipeline keeps its steps at every nesting level with their classes and attribute names,
and every place is filled: a reference holds the variable's value and everything else is unchanged. -/
theorem C55_filled (vars : Dict String Val) (steps steps' : List Obj) (h : resolveSteps vars steps = .ok steps')
    (is : List Nat) :
    (stepAt steps' is = none ↔ stepAt steps is = none) ∧
    (∀ s, stepAt steps is = some s → ∃ c attrs attrs', s = .inst c attrs ∧ stepAt steps' is = some (.inst c attrs') ∧
      attrs'.map Prod.fst = attrs.map Prod.fst) ∧
    (∀ a p, a ≠ "pipeline_steps" →
      (valueAt steps' is (a :: p) = none ↔ valueAt steps is (a :: p) = none) ∧
      ∀ x, valueAt steps is (a :: p) = some x → ∃ x', valueAt steps' is (a :: p) = some x' ∧ Filled vars x x') := by
  rcases resolve_stepAt h is with ⟨h1, h2⟩ | ⟨s, s', h1, h2, h3⟩
  · rw [h1, h2]
    refine ⟨by simp, by simp, fun a p _ => ?_⟩
    unfold valueAt
    rw [h1, h2]
    simp
  · obtain ⟨c, attrs, attrs', rfl, h4, h5⟩ := resolveStep_ok h3
    have key : ∃ attrs'', s' = .inst c attrs'' ∧ attrs''.map Prod.fst = attrs.map Prod.fst ∧
        ∀ a p, a ≠ "pipeline_steps" → follow attrs'' (a :: p) = follow attrs' (a :: p) := by
      rcases h5 with ⟨-, rfl⟩ | ⟨items, items', h6, -, rfl⟩
      · exact ⟨attrs', rfl, resolveAttrs_names h4, fun _ _ _ => rfl⟩
      · refine ⟨_, rfl, ?_, fun a p ha => follow_set p ha⟩
        rw [← resolveAttrs_names h4]
        apply keys_assocSet_of_mem
        rw [resolveAttrs_names h4, ← assoc_isSome_iff, h6]
        rfl
    obtain ⟨attrs'', rfl, h6, h7⟩ := key
    rw [h1, h2]
    refine ⟨by simp, ?_, fun a p ha => ?_⟩
    · intro s hs
      cases hs
      exact ⟨c, attrs, attrs'', rfl, rfl, h6⟩
    · unfold valueAt
      rw [h1, h2]
      simp only
      rw [h7 a p ha]
      rcases resolve_follow h4 (a :: p) with ⟨h8, h9⟩ | ⟨x, x', h8, h9, h10⟩
      · rw [h8, h9]
        simp
      · rw [h8, h9]
        refine ⟨by simp, fun y hy => ?_⟩
        cases hy
        exact ⟨x', rfl, resolveValue_filled h10⟩

/-- C55, no reference is left: after a successful resolution no place of the pipeline holds a reference. -/
theorem C55_no_reference_left (vars : Dict String Val) (steps steps' : List Obj) (h : resolveSteps vars steps = .ok steps')
    (n : String) : ¬ Refers steps' n := by
  rintro ⟨is, p, hp⟩
  cases p with
  | nil =>
    unfold valueAt at hp
    split at hp <;> cases hp
  | cons a p =>
    by_cases ha : a = "pipeline_steps"
    · subst ha
      rcases resolve_stepAt h is with ⟨h1, h2⟩ | ⟨s, s', h1, h2, h3⟩
      · unfold valueAt at hp
        rw [h2] at hp
        cases hp
      · obtain ⟨c, attrs, attrs', rfl, h4, h5⟩ := resolveStep_ok h3
        rcases h5 with ⟨h6, rfl⟩ | ⟨items, items', h6, -, rfl⟩
        · have : assoc "pipeline_steps" attrs' = none := by
            rcases resolveAttrs_assoc h4 "pipeline_steps" with h | ⟨x, x', h, -⟩
            · exact h.2
            · rw [h6] at h; cases h
          unfold valueAt at hp
          rw [h2] at hp
          simp only at hp
          rw [follow, this] at hp
          cases hp
        · unfold valueAt at hp
          rw [h2] at hp
          simp only at hp
          rw [follow, assoc_assocSet, if_pos rfl] at hp
          cases p with
          | nil => simp at hp
          | cons b q => simp at hp
    · obtain ⟨-, -, h3⟩ := C55_filled vars steps steps' h is
      obtain ⟨h4, h5⟩ := h3 a p ha
      cases hx : valueAt steps is (a :: p) with
      | none => rw [h4.2 hx] at hp; cases hp
      | some x =>
        obtain ⟨x', h6, h7⟩ := h5 x hx
        rw [hp] at h6
        obtain rfl := Option.some.inj h6
        cases h7 with
        | plain h _ => exact h n rfl

/-- C55, errors: for a pipeline of step objects, resolving raises iff some place refers to a variable without a value, and what
it raises is `ValueError`. -/
theorem C55_missing_variable (vars : Dict String Val) (steps : List Obj) (hs : Regular steps) :
    ((∃ n, Refers steps n ∧ vars.get? n = none) ↔ resolveSteps vars steps = .error .valueError) ∧
    ((∀ n, Refers steps n → vars.get? n ≠ none) ↔ ∃ steps', resolveSteps vars steps = .ok steps') := by
  have key : (∃ n, Refers steps n ∧ vars.get? n = none) → ∀ steps', resolveSteps vars steps ≠ .ok steps' := by
    rintro ⟨n, ⟨is, p, hp⟩, hn⟩ steps' h
    cases p with
    | nil =>
      unfold valueAt at hp
      split at hp <;> cases hp
    | cons a p =>
      by_cases ha : a = "pipeline_steps"
      · subst ha
        unfold valueAt at hp
        cases hst : stepAt steps is with
        | none => rw [hst] at hp; cases hp
        | some s =>
          obtain ⟨c, attrs, rfl, -, hl⟩ := hs is s hst
          rw [hst] at hp
          simp only at hp
          rw [follow] at hp
          cases hx : assoc "pipeline_steps" attrs with
          | none => rw [hx] at hp; cases hp
          | some x =>
            obtain ⟨items, rfl⟩ := hl x hx
            rw [hx] at hp
            cases p <;> simp at hp
      · obtain ⟨x', -, h7⟩ := ((C55_filled vars steps steps' h is).2.2 a p ha).2 _ hp
        cases h7 with
        | ref hv => rw [hn] at hv; cases hv
        | plain h _ => exact h n rfl
  cases hr : resolveSteps vars steps with
  | ok steps' =>
    refine ⟨iff_of_false (fun h => key h steps' hr) (by simp), iff_of_true ?_ ⟨steps', rfl⟩⟩
    intro n hn hv
    exact key ⟨n, hn, hv⟩ steps' hr
  | error e =>
    obtain ⟨rfl, is, p, n, h1, h2⟩ := steps_error steps e hs hr
    refine ⟨iff_of_true ⟨n, ⟨is, p, h1⟩, h2⟩ rfl, iff_of_false ?_ (by simp)⟩
    intro h
    exact h n ⟨is, p, h1⟩ h2

/-! ### C56 -/

/-- C56, what the model factory does without user values: every reference takes the default of its variable. -/
theorem C56_factory_defaults (a : Algorithm) (steps' : List Obj) (h : factorySteps a none = .ok steps')
    (hne : a.declared ≠ []) : resolveSteps (resolveVariables a.declared Dict.empty) a.steps = .ok steps' := by
  unfold factorySteps at h
  simp only at h
  rw [if_pos] at h
  · exact h
  · obtain ⟨x, hx⟩ := List.exists_mem_of_ne_nil _ hne
    have : (resolveVariables a.declared Dict.empty).get? x.name ≠ none := by
      intro hn
      exact ((C54_resolved a.declared Dict.empty x.name).1.1 hn) x hx rfl
    obtain ⟨v, hv⟩ := Option.ne_none_iff_exists'.1 this
    rw [← Dict.mem_items_iff] at hv
    exact List.length_pos_of_mem hv

/-- The full claim of C56: whatever declared variables the experiment leaves unset, every reference is filled with the resolved
value (the experiment's, else the default). -/
def ExperimentDefaults (a : Algorithm) (experiment : Dict String Val) : Prop :=
  ∀ steps', resolveSteps (resolveVariables a.declared experiment) a.steps = .ok steps' →
    validateVariableValues a.declared experiment = .ok true →
    executeSteps a experiment = .ok (steps', resolveVariables a.declared experiment)

/-- C56, the part that holds: if the experiment sets at least one variable and every variable that the pipeline refers to, the
executed steps are filled with the resolved values. -/
theorem C56_all_set_partial (a : Algorithm) (experiment : Dict String Val) (hs : Regular a.steps)
    (hne : experiment.items ≠ []) (hset : ∀ n, Refers a.steps n → experiment.get? n ≠ none)
    (hv : validateVariableValues a.declared experiment = .ok true) :
    ∃ steps', executeSteps a experiment = .ok (steps', resolveVariables a.declared experiment) ∧
      ∀ is b p x, b ≠ "pipeline_steps" → valueAt a.steps is (b :: p) = some x →
        ∃ x', valueAt steps' is (b :: p) = some x' ∧ Filled (resolveVariables a.declared experiment) x x' := by
  obtain ⟨steps', h⟩ := (C55_missing_variable experiment a.steps hs).2.1 hset
  refine ⟨steps', ?_, ?_⟩
  · unfold executeSteps factorySteps
    rw [hv]
    simp only
    rw [if_pos (List.length_pos_iff.2 hne), h]
  · intro is b p x hb hx
    obtain ⟨x', h1, h2⟩ := ((C55_filled experiment a.steps steps' h is).2.2 b p hb).2 x hx
    refine ⟨x', h1, ?_⟩
    cases h2 with
    | ref hn =>
      rename_i n v
      refine .ref ?_
      obtain ⟨y, hy, -⟩ := (C53_validation a.declared experiment).1.1 hv n v hn
      rw [(C54_resolved a.declared experiment n).2 y hy, hn]
      rfl
    | inst h3 h4 => exact .inst h3 h4
    | frozen h3 => exact .frozen h3
    | plain h3 h4 => exact .plain h3 h4

/-- C56, what happens instead: an experiment that sets some variable but not one the pipeline refers to raises `ValueError`,
although the variable may have a default. -/
theorem C56_some_unset_raises (a : Algorithm) (experiment : Dict String Val) (hs : Regular a.steps)
    (hne : experiment.items ≠ []) (n : String) (hn : Refers a.steps n) (hu : experiment.get? n = none) :
    executeSteps a experiment = .error .valueError := by
  unfold executeSteps
  by_cases hv : validateVariableValues a.declared experiment = .ok true
  · rw [hv]
    unfold factorySteps
    simp only
    rw [if_pos (List.length_pos_iff.2 hne), (C55_missing_variable experiment a.steps hs).1.1 ⟨n, hn, hu⟩]
  · rw [(C53_validation a.declared experiment).2 hv]

/-- C56, an experiment without any variables runs the pipeline as it is, references included. -/
theorem C56_none_set_keeps_references (a : Algorithm) :
    executeSteps a Dict.empty = .ok (a.steps, resolveVariables a.declared Dict.empty) := rfl

/-! ### Cases meeting the hypotheses -/

def exAlpha : Variable := ⟨"alpha", .float, .float (1 / 100), none⟩
def exDepth : Variable := ⟨"depth", .integer, .int 3, some [.int 2, .int 3, .float 5]⟩

/-- a step with a threshold and a generator inside a loop, as in `PC` -/
def exVarSteps : List Obj :=
  [.inst "Loop" [("pipeline_steps", .list [.inst "Test" [("threshold", .ref "alpha"),
    ("generator", .inst "Gen" [("settings", .inst "Settings" [("max", .ref "depth")]), ("chunked", .val (.bool false))])]]),
    ("exit_condition", .inst "Exit" [])]]

def exVarAlgorithm : Algorithm := ⟨[exAlpha, exDepth], exVarSteps⟩

/-- both references are found below the loop -/
example : Refers exVarSteps "alpha" ∧ Refers exVarSteps "depth" :=
  ⟨⟨[0, 0], ["threshold"], rfl⟩, ⟨[0, 0], ["generator", "settings", "max"], rfl⟩⟩

/-- distinct names along every path, for an object whose attributes hold no further objects with attributes -/
theorem distinct_of_flat (attrs : List (String × Obj)) (hn : (attrs.map Prod.fst).Nodup)
    (hf : ∀ a c l, assoc a attrs = some (.inst c l) → DistinctAttrs l) : DistinctAttrs attrs := by
  refine ⟨hn, fun p c l h => ?_⟩
  cases p with
  | nil => cases h
  | cons a p =>
    rw [follow] at h
    cases hx : assoc a attrs with
    | none => rw [hx] at h; cases h
    | some x =>
      rw [hx] at h
      cases p with
      | nil => cases h; exact (hf a c l hx).1
      | cons b q =>
        cases x with
        | inst c' l' =>
          simp only at h
          split at h
          · cases h
          · exact (hf a c' l' hx).2 _ c l h
        | _ => cases h

/-- the pipeline of the example is regular -/
example : Regular exVarSteps := by
  have hempty : DistinctAttrs [] := distinct_of_flat [] (by simp) (by simp [assoc])
  have hset : DistinctAttrs [("max", .ref "depth")] := distinct_of_flat _ (by decide) (by
    intro a c l h
    simp only [assoc] at h
    split at h <;> simp at h)
  have hgen : DistinctAttrs [("settings", .inst "Settings" [("max", .ref "depth")]), ("chunked", .val (.bool false))] :=
    distinct_of_flat _ (by decide) (by
      intro a c l h
      simp only [assoc] at h
      split at h
      · cases h; exact hset
      · split at h <;> simp at h)
  have htest : DistinctAttrs [("threshold", .ref "alpha"),
      ("generator", .inst "Gen" [("settings", .inst "Settings" [("max", .ref "depth")]), ("chunked", .val (.bool false))])] :=
    distinct_of_flat _ (by decide) (by
      intro a c l h
      simp only [assoc] at h
      split at h
      · cases h
      · split at h
        · cases h; exact hgen
        · cases h)
  have hloop : ∀ l, DistinctAttrs [("pipeline_steps", .list l), ("exit_condition", .inst "Exit" [])] := fun l =>
    distinct_of_flat _ (by simp) (by
      intro a c l h
      simp only [assoc] at h
      split at h
      · cases h
      · split at h
        · cases h; exact hempty
        · cases h)
  intro is s h
  rcases is with _ | ⟨_ | i, is⟩
  · cases h
  · rcases is with _ | ⟨_ | j, is⟩
    · cases h
      refine ⟨_, _, rfl, hloop _, fun x hx => ?_⟩
      cases hx
      exact ⟨_, rfl⟩
    · rcases is with _ | ⟨k, is⟩
      · cases h
        refine ⟨_, _, rfl, htest, fun x hx => ?_⟩
        cases hx
      · cases h
    · cases h
  · cases h

/-- integer 5 is among the choices because it equals the float 5; `True` is not an integer, 4 is no choice -/
example : Allowed exDepth (.int 5) ∧ ¬ Allowed exDepth (.bool true) ∧ ¬ Allowed exDepth (.int 4) := by
  refine ⟨(validateValue_iff _ _).1 (by decide +kernel), ?_, ?_⟩ <;> rw [← validateValue_iff] <;> decide +kernel

/-- resolving with both values fills both places -/
example : resolveSteps ((Dict.empty.set "alpha" (.float (1 / 20))).set "depth" (.int 2)) exVarSteps =
    .ok [.inst "Loop" [("pipeline_steps", .list [.inst "Test" [("threshold", .val (.float (1 / 20))),
      ("generator", .inst "Gen" [("settings", .inst "Settings" [("max", .val (.int 2))]), ("chunked", .val (.bool false))])]]),
      ("exit_condition", .inst "Exit" [])]] := rfl

/-- C56 is false: with only `depth` set the default of `alpha` would do, but execution raises -/
theorem C56_full_claim_false : ∃ a e, ¬ ExperimentDefaults a e := by
  refine ⟨exVarAlgorithm, Dict.empty.set "depth" (.int 2), fun h => ?_⟩
  have h1 := h _ rfl (by decide +kernel)
  have h2 : executeSteps exVarAlgorithm (Dict.empty.set "depth" (.int 2)) = .error .valueError := rfl
  rw [h2] at h1
  cases h1

/-- C56 is false also for an experiment that sets nothing: the steps that run still hold a reference -/
theorem C56_reference_left : ∃ a s v, executeSteps a Dict.empty = .ok (s, v) ∧ v.get? "alpha" ≠ none ∧ Refers s "alpha" :=
  ⟨exVarAlgorithm, _, _, rfl, by decide +kernel, [0, 0], ["threshold"], rfl⟩

end Vars
end Verif
