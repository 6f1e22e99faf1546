import Verif.Vars.Spec

/-!
# Helper lemmas: variables
-/

namespace Verif
namespace Vars

theorem pyEq_iff (a b : Val) : pyEq a b = true ↔ SameValue a b := by
  cases a <;> cases b <;> simp [pyEq, SameValue, Val.number]

theorem isInstance_iff (v : Val) (t : VarType) :
    isInstance v t = true ↔ typeOf v = t ∨ (∃ b, v = .bool b) ∧ t = .integer := by
  cases v <;> cases t <;> simp [isInstance, typeOf]

theorem validateValue_iff (x : Variable) (v : Val) : validateValue x v = .ok () ↔ Allowed x v := by
  have hb : ∀ (v : Val), isInstance v x.type = true → (baseValidate x v = .ok () ↔
      ∀ cs, x.choices = some cs → cs ≠ [] → ∃ c ∈ cs, SameValue v c) := by
    intro v hi
    unfold baseValidate
    rw [if_neg (by simp [hi])]
    cases hc : x.choices with
    | none => simp
    | some cs =>
      cases cs with
      | nil => simp
      | cons c cs =>
        simp only [Option.some.injEq, forall_eq', ne_eq, reduceCtorEq, not_false_eq_true, forall_const]
        have ha : (List.any (c :: cs) fun c => pyEq v c) = true ↔ ∃ c' ∈ c :: cs, SameValue v c' := by
          rw [List.any_eq_true]
          simp only [pyEq_iff]
        split
        · rename_i h
          exact iff_of_true rfl (ha.1 h)
        · rename_i h
          exact iff_of_false (by simp) (fun h' => h (ha.2 h'))
  by_cases hi : isInstance v x.type = true
  · by_cases hbool : x.type = .integer ∧ ∃ b, v = .bool b
    · obtain ⟨ht, b, rfl⟩ := hbool
      refine iff_of_false ?_ ?_
      · unfold validateValue
        rw [ht]
        simp
      · rintro ⟨h, -⟩
        rw [ht] at h
        cases h
    · have ht : typeOf v = x.type := by
        rcases (isInstance_iff v x.type).1 hi with h | h
        · exact h
        · exact absurd ⟨h.2, h.1⟩ hbool
      have : validateValue x v = baseValidate x v := by
        unfold validateValue
        split
        · rename_i b h1
          exact absurd ⟨h1, b, rfl⟩ hbool
        · rfl
      rw [this, hb v hi]
      exact ⟨fun h => ⟨ht, h⟩, fun h => h.2⟩
  · have ht : typeOf v ≠ x.type := fun h => hi ((isInstance_iff v x.type).2 (Or.inl h))
    refine iff_of_false ?_ (fun h => ht h.1)
    unfold validateValue
    split
    · simp
    · unfold baseValidate
      rw [if_pos (by simpa using hi)]
      simp

theorem validateValue_error (x : Variable) (v : Val) : validateValue x v = .ok () ∨ validateValue x v = .error .valueError := by
  unfold validateValue baseValidate
  split
  · exact Or.inr rfl
  · split
    · exact Or.inr rfl
    · split
      · exact Or.inl rfl
      · exact Or.inl rfl
      · split
        · exact Or.inl rfl
        · exact Or.inr rfl

theorem byName_get (declared : List Variable) (n : String) (x : Variable) :
    (byName declared).get? n = some x ↔ Declares declared n x := by
  unfold byName
  have key : ∀ (l : List Variable) (d : Dict String Variable),
      (l.foldl (fun d x => d.set x.name x) d).get? n = some x ↔
        Declares l n x ∨ ((∀ y ∈ l, y.name ≠ n) ∧ d.get? n = some x) := by
    intro l
    induction l with
    | nil =>
      intro d
      simp [Declares]
    | cons w ws ih =>
      intro d
      rw [List.foldl_cons, ih, Dict.get?_set]
      constructor
      · rintro (⟨b, a, h1, h2, h3⟩ | ⟨h1, h2⟩)
        · exact Or.inl ⟨w :: b, a, by rw [h1]; rfl, h2, h3⟩
        · by_cases e : w.name = n
          · rw [if_pos e] at h2
            obtain rfl := Option.some.inj h2
            exact Or.inl ⟨[], ws, rfl, e, h1⟩
          · rw [if_neg e] at h2
            exact Or.inr ⟨by simpa using ⟨e, h1⟩, h2⟩
      · rintro (⟨b, a, h1, h2, h3⟩ | ⟨h1, h2⟩)
        · cases b with
          | nil =>
            simp only [List.nil_append, List.cons.injEq] at h1
            obtain ⟨rfl, rfl⟩ := h1
            exact Or.inr ⟨h3, by rw [if_pos h2]⟩
          | cons w' b =>
            simp only [List.cons_append, List.cons.injEq] at h1
            exact Or.inl ⟨b, a, h1.2, h2, h3⟩
        · simp only [List.mem_cons, forall_eq_or_imp] at h1
          exact Or.inr ⟨h1.2, by rw [if_neg h1.1]; exact h2⟩
  rw [key]
  simp

theorem byName_none (declared : List Variable) (n : String) :
    (byName declared).get? n = none ↔ ∀ x ∈ declared, x.name ≠ n := by
  unfold byName
  have key : ∀ (l : List Variable) (d : Dict String Variable),
      (l.foldl (fun d x => d.set x.name x) d).get? n = none ↔ (∀ y ∈ l, y.name ≠ n) ∧ d.get? n = none := by
    intro l
    induction l with
    | nil => intro d; simp
    | cons w ws ih =>
      intro d
      rw [List.foldl_cons, ih, Dict.get?_set]
      by_cases e : w.name = n
      · simp [e]
      · simp [e]
  rw [key]
  simp

theorem validateItems_ok (names : Dict String Variable) (l : List (String × Val)) :
    (validateItems names l = .ok true ↔ ∀ n v, (n, v) ∈ l → ∃ x, names.get? n = some x ∧ Allowed x v) ∧
      (validateItems names l ≠ .ok true → validateItems names l = .error .valueError) := by
  induction l with
  | nil => simp [validateItems]
  | cons p l ih =>
    obtain ⟨n, v⟩ := p
    unfold validateItems
    cases hx : names.get? n with
    | none =>
      refine ⟨iff_of_false (by simp) ?_, by simp⟩
      intro h
      obtain ⟨x, h1, -⟩ := h n v (by simp)
      rw [hx] at h1
      cases h1
    | some x =>
      simp only
      rcases validateValue_error x v with hv | hv
      · rw [hv]
        simp only
        refine ⟨?_, ih.2⟩
        rw [ih.1]
        constructor
        · intro h n' v' hm
          rcases List.mem_cons.1 hm with e | hm
          · cases e
            exact ⟨x, hx, (validateValue_iff x v).1 hv⟩
          · exact h n' v' hm
        · intro h n' v' hm
          exact h n' v' (by simp [hm])
      · rw [hv]
        refine ⟨iff_of_false (by simp) ?_, by simp⟩
        intro h
        obtain ⟨x', h1, h2⟩ := h n v (by simp)
        rw [hx] at h1
        obtain rfl := Option.some.inj h1
        rw [(validateValue_iff x v).2 h2] at hv
        cases hv

theorem resolveVariables_get (declared : List Variable) (values : Dict String Val) (n : String) :
    (resolveVariables declared values).get? n =
      match (byName declared).get? n with
      | none => none
      | some x => some ((values.get? n).getD x.value) := by
  unfold resolveVariables byName
  have key : ∀ (l : List Variable) (d : Dict String Val) (e : Dict String Variable),
      d.get? n = (match e.get? n with | none => none | some x => some ((values.get? n).getD x.value)) →
      (l.foldl (fun d x => match values.get? x.name with
        | some v => d.set x.name v
        | none => d.set x.name x.value) d).get? n =
        match (l.foldl (fun d x => d.set x.name x) e).get? n with
        | none => none
        | some x => some ((values.get? n).getD x.value) := by
    intro l
    induction l with
    | nil => intro d e h; exact h
    | cons w ws ih =>
      intro d e h
      rw [List.foldl_cons, List.foldl_cons]
      refine ih _ _ ?_
      rw [Dict.get?_set]
      by_cases hn : w.name = n
      · subst hn
        rw [if_pos rfl]
        cases hv : values.get? w.name with
        | none => simp
        | some v => simp
      · rw [if_neg hn]
        cases hv : values.get? w.name with
        | none => simp only [Dict.get?_set, if_neg hn]; exact h
        | some v => simp only [Dict.get?_set, if_neg hn]; exact h
  exact key declared Dict.empty Dict.empty (by simp)

end Vars
end Verif
