import Verif.Workspace.Lemmas3
import Verif.Vars.Props

/-!
# Lemmas about filling in variables: more variables change nothing, and no references means nothing changes
-/

namespace Verif
namespace Vars

section
set_option linter.unusedSectionVars false
variable {v1 v2 : Dict String Val} (h : ∀ n v, v1.get? n = some v → v2.get? n = some v)
include h

mutual
theorem resolveValue_mono : ∀ (x x' : Obj), resolveValue v1 x = .ok x' → resolveValue v2 x = .ok x'
  | .ref n, x', hx => by
    rw [resolveValue] at hx ⊢
    cases hv : v1.get? n with
    | none => rw [hv] at hx; cases hx
    | some v => rw [hv] at hx; rw [h n v hv]; exact hx
  | .inst c attrs, x', hx => by
    rw [resolveValue] at hx ⊢
    by_cases hh : hasValue attrs = true
    · rw [if_pos hh] at hx ⊢; exact hx
    · rw [if_neg hh] at hx ⊢
      cases ha : resolveAttrs v1 attrs with
      | error e => rw [ha] at hx; cases hx
      | ok attrs' => rw [ha] at hx; rw [resolveAttrs_mono attrs attrs' ha]; exact hx
  | .val v, x', hx => by rw [resolveValue] at hx ⊢; exact hx
  | .null, x', hx => by rw [resolveValue] at hx ⊢; exact hx
  | .other t, x', hx => by rw [resolveValue] at hx ⊢; exact hx
  | .list l, x', hx => by rw [resolveValue] at hx ⊢; exact hx

theorem resolveAttrs_mono : ∀ (l l' : List (String × Obj)), resolveAttrs v1 l = .ok l' → resolveAttrs v2 l = .ok l'
  | [], l', hx => by rw [resolveAttrs] at hx ⊢; exact hx
  | (a, x) :: rest, l', hx => by
    obtain ⟨x', rest', h1, h2, h3⟩ := resolveAttrs_cons hx
    rw [resolveAttrs, resolveAttr, resolveValue_mono x x' h1, resolveAttrs_mono rest rest' h2, h3]
end

mutual
theorem resolveStep_mono : ∀ (s s' : Obj), resolveStep v1 s = .ok s' → resolveStep v2 s = .ok s'
  | .inst c attrs, s', hx => by
    rw [resolveStep] at hx ⊢
    cases ha : resolveAttrs v1 attrs with
    | error e => rw [ha] at hx; cases hx
    | ok attrs' =>
      rw [ha] at hx
      rw [resolveAttrs_mono h attrs attrs' ha]
      cases hn : nestedSteps v1 attrs with
      | error e => rw [hn] at hx; cases hx
      | ok r => rw [hn] at hx; rw [nestedSteps_mono attrs r hn]; exact hx
  | .ref n, s', hx => by simp [resolveStep] at hx
  | .val v, s', hx => by simp [resolveStep] at hx
  | .null, s', hx => by simp [resolveStep] at hx
  | .other t, s', hx => by simp [resolveStep] at hx
  | .list l, s', hx => by simp [resolveStep] at hx

theorem nestedSteps_mono : ∀ (l : List (String × Obj)) (r : Option (List Obj)), nestedSteps v1 l = .ok r → nestedSteps v2 l = .ok r
  | [], r, hx => by rw [nestedSteps] at hx ⊢; exact hx
  | p :: rest, r, hx => by
    rw [nestedSteps] at hx ⊢
    by_cases hp : p.1 = "pipeline_steps"
    · rw [if_pos hp] at hx ⊢; exact nestedAttr_mono p r hx
    · rw [if_neg hp] at hx ⊢; exact nestedSteps_mono rest r hx

theorem nestedAttr_mono : ∀ (p : String × Obj) (r : Option (List Obj)), nestedAttr v1 p = .ok r → nestedAttr v2 p = .ok r
  | (_, x), r, hx => by rw [nestedAttr] at hx ⊢; exact nestedOf_mono x r hx

theorem nestedOf_mono : ∀ (x : Obj) (r : Option (List Obj)), nestedOf v1 x = .ok r → nestedOf v2 x = .ok r
  | .list items, r, hx => by
    rw [nestedOf] at hx ⊢
    cases hs : resolveSteps v1 items with
    | error e => rw [hs] at hx; cases hx
    | ok items' => rw [hs] at hx; rw [resolveSteps_mono items items' hs]; exact hx
  | .ref n, r, hx => by simp [nestedOf] at hx
  | .val v, r, hx => by simp [nestedOf] at hx
  | .null, r, hx => by simp [nestedOf] at hx
  | .other t, r, hx => by simp [nestedOf] at hx
  | .inst c l, r, hx => by simp [nestedOf] at hx

theorem resolveSteps_mono : ∀ (l l' : List Obj), resolveSteps v1 l = .ok l' → resolveSteps v2 l = .ok l'
  | [], l', hx => by rw [resolveSteps] at hx ⊢; exact hx
  | s :: rest, l', hx => by
    obtain ⟨s', rest', h1, h2, h3⟩ := resolveSteps_cons hx
    rw [resolveSteps, resolveStep_mono s s' h1, resolveSteps_mono rest rest' h2, h3]
end
end

theorem assocSet_same {k : String} {x : Obj} {l : List (String × Obj)} (h : assoc k l = some x) : assocSet k x l = l := by
  induction l with
  | nil => cases h
  | cons p l ih =>
    obtain ⟨k', y⟩ := p
    rw [assoc] at h
    rw [assocSet]
    split at h
    · rename_i hk
      cases h
      rw [if_pos hk, hk]
    · rename_i hk
      rw [if_neg hk, ih h]

/-! ### Without any variable a successful resolution changes nothing -/

mutual
theorem resolveValue_empty : ∀ (x x' : Obj), resolveValue Dict.empty x = .ok x' → x' = x
  | .ref n, x', hx => by rw [resolveValue] at hx; cases hx
  | .inst c attrs, x', hx => by
    rw [resolveValue] at hx
    by_cases hh : hasValue attrs = true
    · rw [if_pos hh] at hx; cases hx; rfl
    · rw [if_neg hh] at hx
      cases ha : resolveAttrs Dict.empty attrs with
      | error e => rw [ha] at hx; cases hx
      | ok attrs' => rw [ha] at hx; cases hx; rw [resolveAttrs_empty attrs attrs' ha]
  | .val v, x', hx => by rw [resolveValue] at hx; cases hx; rfl
  | .null, x', hx => by rw [resolveValue] at hx; cases hx; rfl
  | .other t, x', hx => by rw [resolveValue] at hx; cases hx; rfl
  | .list l, x', hx => by rw [resolveValue] at hx; cases hx; rfl

theorem resolveAttrs_empty : ∀ (l l' : List (String × Obj)), resolveAttrs Dict.empty l = .ok l' → l' = l
  | [], l', hx => by rw [resolveAttrs] at hx; cases hx; rfl
  | (a, x) :: rest, l', hx => by
    obtain ⟨x', rest', h1, h2, h3⟩ := resolveAttrs_cons hx
    rw [h3, resolveValue_empty x x' h1, resolveAttrs_empty rest rest' h2]
end

mutual
theorem resolveStep_empty : ∀ (s s' : Obj), resolveStep Dict.empty s = .ok s' → s' = s
  | .inst c attrs, s', hx => by
    rw [resolveStep] at hx
    cases ha : resolveAttrs Dict.empty attrs with
    | error e => rw [ha] at hx; cases hx
    | ok attrs' =>
      rw [ha] at hx
      have he := resolveAttrs_empty attrs attrs' ha
      subst he
      cases hn : nestedSteps Dict.empty attrs' with
      | error e => rw [hn] at hx; cases hx
      | ok r =>
        rw [hn] at hx
        have := nestedSteps_empty attrs' r hn
        cases r with
        | none => cases hx; rfl
        | some items => cases hx; rw [assocSet_same (this items rfl)]
  | .ref n, s', hx => by simp [resolveStep] at hx
  | .val v, s', hx => by simp [resolveStep] at hx
  | .null, s', hx => by simp [resolveStep] at hx
  | .other t, s', hx => by simp [resolveStep] at hx
  | .list l, s', hx => by simp [resolveStep] at hx

theorem nestedSteps_empty : ∀ (l : List (String × Obj)) (r : Option (List Obj)), nestedSteps Dict.empty l = .ok r →
    ∀ items, r = some items → assoc "pipeline_steps" l = some (.list items)
  | [], r, hx => by rw [nestedSteps] at hx; cases hx; intro _ h; cases h
  | (a, x) :: rest, r, hx => by
    rw [nestedSteps] at hx
    by_cases hp : a = "pipeline_steps"
    · rw [if_pos hp, nestedAttr] at hx
      intro items hr
      rw [assoc, if_pos hp, nestedOf_empty x r hx items hr]
    · rw [if_neg hp] at hx
      intro items hr
      rw [assoc, if_neg hp]
      exact nestedSteps_empty rest r hx items hr

theorem nestedOf_empty : ∀ (x : Obj) (r : Option (List Obj)), nestedOf Dict.empty x = .ok r →
    ∀ items, r = some items → x = .list items
  | .list items, r, hx => by
    rw [nestedOf] at hx
    cases hs : resolveSteps Dict.empty items with
    | error e => rw [hs] at hx; cases hx
    | ok items' =>
      rw [hs] at hx; cases hx
      intro it hit
      cases hit
      rw [resolveSteps_empty items items' hs]
  | .ref n, r, hx => by simp [nestedOf] at hx
  | .val v, r, hx => by simp [nestedOf] at hx
  | .null, r, hx => by simp [nestedOf] at hx
  | .other t, r, hx => by simp [nestedOf] at hx
  | .inst c l, r, hx => by simp [nestedOf] at hx

theorem resolveSteps_empty : ∀ (l l' : List Obj), resolveSteps Dict.empty l = .ok l' → l' = l
  | [], l', hx => by rw [resolveSteps] at hx; cases hx; rfl
  | s :: rest, l', hx => by
    obtain ⟨s', rest', h1, h2, h3⟩ := resolveSteps_cons hx
    rw [h3, resolveStep_empty s s' h1, resolveSteps_empty rest rest' h2]
end

/-- the values of an experiment are among the resolved values -/
theorem resolved_extends (declared : List Variable) (values : Dict String Val)
    (hv : validateVariableValues declared values = .ok true) (n : String) (v : Val) (h : values.get? n = some v) :
    (resolveVariables declared values).get? n = some v := by
  obtain ⟨x, hx, -⟩ := (C53_validation declared values).1.1 hv n v h
  rw [(C54_resolved declared values n).2 x hx, h]
  rfl

theorem validate_true {declared : List Variable} {values : Dict String Val} {b : Bool}
    (h : validateVariableValues declared values = .ok b) : validateVariableValues declared values = .ok true := by
  by_contra hn
  rw [(C53_validation declared values).2 hn] at h
  cases h

/-- Filling in the experiment's own variables and filling in all resolved variables give the same steps, if the experiment sets
some variable, the pipeline declares none, or refers to none. -/
theorem factory_own_eq_resolved (a : Algorithm) (values : Dict String Val) (steps : List Obj)
    (hv : validateVariableValues a.declared values = .ok true) (h : factorySteps a (some values) = .ok steps)
    (hcase : values.items ≠ [] ∨ a.declared = [] ∨ Regular a.steps ∧ ∀ n, ¬ Refers a.steps n) :
    factorySteps a (some (resolveVariables a.declared values)) = .ok steps := by
  have key : resolveSteps values a.steps = .ok steps ∨ (values.items = [] ∧ steps = a.steps) := by
    unfold factorySteps at h
    simp only at h
    by_cases hl : values.items.length > 0
    · rw [if_pos hl] at h; exact Or.inl h
    · rw [if_neg hl] at h
      cases h
      exact Or.inr ⟨List.length_eq_zero_iff.1 (by omega), rfl⟩
  rcases key with key | ⟨he, rfl⟩
  · unfold factorySteps
    simp only
    have hm := resolveSteps_mono (resolved_extends a.declared values hv) a.steps steps key
    by_cases hl : (resolveVariables a.declared values).items.length > 0
    · rw [if_pos hl]; exact hm
    · rw [if_neg hl]
      have : resolveVariables a.declared values = Dict.empty := by
        have h0 := List.length_eq_zero_iff.1 (by omega : (resolveVariables a.declared values).items.length = 0)
        exact Dict.ext h0
      rw [this] at hm
      rw [resolveSteps_empty _ _ hm]
  · unfold factorySteps
    simp only
    by_cases hl : (resolveVariables a.declared values).items.length > 0
    · rw [if_pos hl]
      rcases hcase with h1 | h1 | ⟨h1, h2⟩
      · exact absurd he h1
      · rw [h1] at hl
        exact absurd hl (by simp [resolveVariables, Dict.empty])
      · obtain ⟨s', hs'⟩ := (C55_missing_variable Dict.empty a.steps h1).2.1 (fun n hn => absurd hn (h2 n))
        have := resolveSteps_empty _ _ hs'
        subst this
        exact resolveSteps_mono (v1 := Dict.empty) (fun n v hnv => by cases hnv) _ _ hs'
    · rw [if_neg hl]

end Vars
end Verif
