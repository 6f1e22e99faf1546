import Verif.Vars.Lemmas

/-!
# Helper lemmas: resolving references in nested objects
-/

namespace Verif
namespace Vars
variable {vars : Dict String Val}

theorem resolveAttrs_cons {a : String} {x : Obj} {rest l : List (String × Obj)}
    (h : resolveAttrs vars ((a, x) :: rest) = .ok l) :
    ∃ x' rest', resolveValue vars x = .ok x' ∧ resolveAttrs vars rest = .ok rest' ∧ l = (a, x') :: rest' := by
  rw [resolveAttrs, resolveAttr] at h
  cases hx : resolveValue vars x with
  | error e => rw [hx] at h; cases h
  | ok x' =>
    rw [hx] at h
    simp only at h
    cases hr : resolveAttrs vars rest with
    | error e => rw [hr] at h; cases h
    | ok rest' =>
      rw [hr] at h
      cases h
      exact ⟨x', rest', rfl, rfl, rfl⟩

theorem resolveAttrs_names {attrs attrs' : List (String × Obj)} (h : resolveAttrs vars attrs = .ok attrs') :
    attrs'.map Prod.fst = attrs.map Prod.fst := by
  induction attrs generalizing attrs' with
  | nil => rw [resolveAttrs] at h; cases h; rfl
  | cons p rest ih =>
    obtain ⟨a, x⟩ := p
    obtain ⟨x', rest', -, hr, rfl⟩ := resolveAttrs_cons h
    simp [ih hr]

theorem resolveAttrs_assoc {attrs attrs' : List (String × Obj)} (h : resolveAttrs vars attrs = .ok attrs') (a : String) :
    (assoc a attrs = none ∧ assoc a attrs' = none) ∨
      ∃ x x', assoc a attrs = some x ∧ assoc a attrs' = some x' ∧ resolveValue vars x = .ok x' := by
  induction attrs generalizing attrs' with
  | nil => rw [resolveAttrs] at h; cases h; exact Or.inl ⟨rfl, rfl⟩
  | cons p rest ih =>
    obtain ⟨b, x⟩ := p
    obtain ⟨x', rest', hx, hr, rfl⟩ := resolveAttrs_cons h
    by_cases e : b = a
    · exact Or.inr ⟨x, x', by simp [assoc, e], by simp [assoc, e], hx⟩
    · simpa [assoc, e] using ih hr

theorem hasValue_eq {attrs attrs' : List (String × Obj)} (h : attrs'.map Prod.fst = attrs.map Prod.fst) :
    hasValue attrs' = hasValue attrs := by
  unfold hasValue
  rw [Bool.eq_iff_iff, assoc_isSome_iff, assoc_isSome_iff, h]

theorem resolveValue_inst {c : String} {attrs : List (String × Obj)} {x' : Obj}
    (h : resolveValue vars (.inst c attrs) = .ok x') :
    (hasValue attrs = true ∧ x' = .inst c attrs) ∨
      (hasValue attrs = false ∧ ∃ attrs', resolveAttrs vars attrs = .ok attrs' ∧ x' = .inst c attrs') := by
  rw [resolveValue] at h
  cases hv : hasValue attrs with
  | true =>
    rw [hv, if_pos rfl] at h
    cases h
    exact Or.inl ⟨rfl, rfl⟩
  | false =>
    rw [hv, if_neg (by simp)] at h
    cases hr : resolveAttrs vars attrs with
    | error e => rw [hr] at h; cases h
    | ok attrs' =>
      rw [hr] at h
      cases h
      exact Or.inr ⟨rfl, attrs', rfl, rfl⟩

theorem resolveValue_filled {x x' : Obj} (h : resolveValue vars x = .ok x') : Filled vars x x' := by
  cases x with
  | ref n =>
    rw [resolveValue] at h
    cases hv : vars.get? n with
    | none => rw [hv] at h; cases h
    | some v => rw [hv] at h; cases h; exact .ref hv
  | inst c attrs =>
    rcases resolveValue_inst h with ⟨h1, rfl⟩ | ⟨h1, attrs', h2, rfl⟩
    · exact .frozen h1
    · exact .inst h1 (resolveAttrs_names h2)
  | val v => rw [resolveValue] at h; cases h; exact .plain (by simp) (by simp)
  | null => rw [resolveValue] at h; cases h; exact .plain (by simp) (by simp)
  | other t => rw [resolveValue] at h; cases h; exact .plain (by simp) (by simp)
  | list l => rw [resolveValue] at h; cases h; exact .plain (by simp) (by simp)

theorem resolve_follow {attrs attrs' : List (String × Obj)} (h : resolveAttrs vars attrs = .ok attrs') (p : List String) :
    (follow attrs p = none ∧ follow attrs' p = none) ∨
      ∃ x x', follow attrs p = some x ∧ follow attrs' p = some x' ∧ resolveValue vars x = .ok x' := by
  induction p generalizing attrs attrs' with
  | nil => exact Or.inl ⟨rfl, rfl⟩
  | cons a p ih =>
    rw [follow, follow]
    rcases resolveAttrs_assoc h a with ⟨h1, h2⟩ | ⟨x, x', h1, h2, h3⟩
    · rw [h1, h2]
      exact Or.inl ⟨rfl, rfl⟩
    · rw [h1, h2]
      cases p with
      | nil => exact Or.inr ⟨x, x', rfl, rfl, h3⟩
      | cons b q =>
        simp only
        cases x with
        | inst c at1 =>
          rcases resolveValue_inst h3 with ⟨h4, rfl⟩ | ⟨h4, at2, h5, rfl⟩
          · simp only [h4, if_true]
            exact Or.inl ⟨trivial, trivial⟩
          · simp only [h4, hasValue_eq (resolveAttrs_names h5)]
            exact ih h5
        | ref n =>
          have := resolveValue_filled h3
          cases this with
          | ref hv => exact Or.inl ⟨rfl, rfl⟩
          | plain h _ => exact absurd rfl (h n)
        | val v => rw [resolveValue] at h3; cases h3; exact Or.inl ⟨rfl, rfl⟩
        | null => rw [resolveValue] at h3; cases h3; exact Or.inl ⟨rfl, rfl⟩
        | other t => rw [resolveValue] at h3; cases h3; exact Or.inl ⟨rfl, rfl⟩
        | list l => rw [resolveValue] at h3; cases h3; exact Or.inl ⟨rfl, rfl⟩

/-! ### steps -/

theorem nestedSteps_eq (attrs : List (String × Obj)) :
    nestedSteps vars attrs =
      match assoc "pipeline_steps" attrs with
      | none => .ok none
      | some x => nestedOf vars x := by
  induction attrs with
  | nil => rw [nestedSteps]; rfl
  | cons p rest ih =>
    obtain ⟨a, x⟩ := p
    rw [nestedSteps]
    by_cases e : a = "pipeline_steps"
    · subst e
      simp [assoc, nestedAttr]
    · rw [if_neg e, ih]
      simp [assoc, e]

theorem nestedOf_ok {x : Obj} {r : Option (List Obj)} (h : nestedOf vars x = .ok r) :
    ∃ items items', x = .list items ∧ r = some items' ∧ resolveSteps vars items = .ok items' := by
  cases x with
  | list items =>
    rw [nestedOf] at h
    cases hr : resolveSteps vars items with
    | error e => rw [hr] at h; cases h
    | ok items' => rw [hr] at h; cases h; exact ⟨items, items', rfl, rfl, hr⟩
  | _ => rw [nestedOf] at h <;> cases h

theorem resolveStep_ok {s s' : Obj} (h : resolveStep vars s = .ok s') :
    ∃ c attrs attrs', s = .inst c attrs ∧ resolveAttrs vars attrs = .ok attrs' ∧
      ((assoc "pipeline_steps" attrs = none ∧ s' = .inst c attrs') ∨
        ∃ items items', assoc "pipeline_steps" attrs = some (.list items) ∧ resolveSteps vars items = .ok items' ∧
          s' = .inst c (assocSet "pipeline_steps" (.list items') attrs')) := by
  cases s with
  | inst c attrs =>
    rw [resolveStep, nestedSteps_eq] at h
    cases hr : resolveAttrs vars attrs with
    | error e => rw [hr] at h; cases h
    | ok attrs' =>
      rw [hr] at h
      refine ⟨c, attrs, attrs', rfl, hr, ?_⟩
      cases ha : assoc "pipeline_steps" attrs with
      | none =>
        rw [ha] at h
        simp only at h
        cases h
        exact Or.inl ⟨rfl, rfl⟩
      | some x =>
        rw [ha] at h
        simp only at h
        cases hn : nestedOf vars x with
        | error e => rw [hn] at h; cases h
        | ok r =>
          rw [hn] at h
          obtain ⟨items, items', rfl, rfl, h3⟩ := nestedOf_ok hn
          simp only at h
          cases h
          exact Or.inr ⟨items, items', rfl, h3, rfl⟩
  | _ => rw [resolveStep] at h <;> cases h

theorem resolveSteps_cons {s : Obj} {rest l : List Obj} (h : resolveSteps vars (s :: rest) = .ok l) :
    ∃ s' rest', resolveStep vars s = .ok s' ∧ resolveSteps vars rest = .ok rest' ∧ l = s' :: rest' := by
  rw [resolveSteps] at h
  cases hs : resolveStep vars s with
  | error e => rw [hs] at h; cases h
  | ok s' =>
    rw [hs] at h
    simp only at h
    cases hr : resolveSteps vars rest with
    | error e => rw [hr] at h; cases h
    | ok rest' => rw [hr] at h; cases h; exact ⟨s', rest', rfl, rfl, rfl⟩

theorem resolveSteps_get {steps steps' : List Obj} (h : resolveSteps vars steps = .ok steps') (i : Nat) :
    (steps[i]? = none ∧ steps'[i]? = none) ∨
      ∃ s s', steps[i]? = some s ∧ steps'[i]? = some s' ∧ resolveStep vars s = .ok s' := by
  induction steps generalizing steps' i with
  | nil => rw [resolveSteps] at h; cases h; exact Or.inl ⟨by simp, by simp⟩
  | cons s rest ih =>
    obtain ⟨s', rest', h1, h2, rfl⟩ := resolveSteps_cons h
    cases i with
    | zero => exact Or.inr ⟨s, s', by simp, by simp, h1⟩
    | succ i => simpa using ih h2 i

theorem resolve_stepAt {steps steps' : List Obj} (h : resolveSteps vars steps = .ok steps') (is : List Nat) :
    (stepAt steps is = none ∧ stepAt steps' is = none) ∨
      ∃ s s', stepAt steps is = some s ∧ stepAt steps' is = some s' ∧ resolveStep vars s = .ok s' := by
  induction is generalizing steps steps' with
  | nil => exact Or.inl ⟨rfl, rfl⟩
  | cons i is ih =>
    rw [stepAt, stepAt]
    rcases resolveSteps_get h i with ⟨h1, h2⟩ | ⟨s, s', h1, h2, h3⟩
    · rw [h1, h2]
      exact Or.inl ⟨rfl, rfl⟩
    · rw [h1, h2]
      cases is with
      | nil => exact Or.inr ⟨s, s', rfl, rfl, h3⟩
      | cons j js =>
        obtain ⟨c, attrs, attrs', rfl, h4, h5⟩ := resolveStep_ok h3
        rcases h5 with ⟨h6, rfl⟩ | ⟨items, items', h6, h7, rfl⟩
        · have : assoc "pipeline_steps" attrs' = none := by
            rcases resolveAttrs_assoc h4 "pipeline_steps" with h | ⟨x, x', h, -⟩
            · exact h.2
            · rw [h6] at h; cases h
          simp only [h6, this]
          exact Or.inl ⟨trivial, trivial⟩
        · simp only [h6, assoc_assocSet, if_true]
          exact ih h7

theorem follow_set {attrs : List (String × Obj)} {x : Obj} {k a : String} (p : List String) (h : a ≠ k) :
    follow (assocSet k x attrs) (a :: p) = follow attrs (a :: p) := by
  rw [follow, follow, assoc_assocSet, if_neg (fun e => h e.symm)]

/-! ### failures -/

/-- a reference without a value can be reached -/
def Dangling (vars : Dict String Val) (attrs : List (String × Obj)) : Prop :=
  ∃ p n, follow attrs p = some (.ref n) ∧ vars.get? n = none

theorem follow_tail {a : String} {x : Obj} {rest : List (String × Obj)} (hn : (((a, x) :: rest).map Prod.fst).Nodup)
    {b : String} {q : List String} {y : Obj} (h : follow rest (b :: q) = some y) :
    follow ((a, x) :: rest) (b :: q) = some y := by
  have hne : a ≠ b := by
    rintro rfl
    simp only [List.map_cons, List.nodup_cons] at hn
    have := (assoc_eq_none_iff a rest).2 hn.1
    rw [follow, this] at h
    cases h
  rw [follow] at h ⊢
  simpa [assoc, hne] using h

theorem distinct_tail {a : String} {x : Obj} {rest : List (String × Obj)} (h : DistinctAttrs ((a, x) :: rest)) :
    DistinctAttrs rest := by
  refine ⟨(List.nodup_cons.1 h.1).2, fun p c attrs' hp => ?_⟩
  cases p with
  | nil => cases hp
  | cons b q => exact h.2 (b :: q) c attrs' (follow_tail h.1 hp)

mutual
theorem value_error : ∀ (x : Obj) (e : PyErr), (∀ c attrs, x = .inst c attrs → hasValue attrs = false → DistinctAttrs attrs) →
    resolveValue vars x = .error e →
    e = .valueError ∧ ((∃ n, x = .ref n ∧ vars.get? n = none) ∨
      ∃ c attrs, x = .inst c attrs ∧ hasValue attrs = false ∧ Dangling vars attrs)
  | .ref n, e, _, h => by
    rw [resolveValue] at h
    cases hv : vars.get? n with
    | none => rw [hv] at h; cases h; exact ⟨rfl, Or.inl ⟨n, rfl, hv⟩⟩
    | some v => rw [hv] at h; cases h
  | .inst c attrs, e, hd, h => by
    rw [resolveValue] at h
    cases hv : hasValue attrs with
    | true => rw [hv, if_pos rfl] at h; cases h
    | false =>
      rw [hv, if_neg (by simp)] at h
      cases hr : resolveAttrs vars attrs with
      | ok a => rw [hr] at h; cases h
      | error e' =>
        rw [hr] at h
        cases h
        obtain ⟨h1, h2⟩ := attrs_error attrs e (hd c attrs rfl hv) hr
        exact ⟨h1, Or.inr ⟨c, attrs, rfl, hv, h2⟩⟩
  | .val v, e, _, h => by rw [resolveValue] at h; cases h
  | .null, e, _, h => by rw [resolveValue] at h; cases h
  | .other t, e, _, h => by rw [resolveValue] at h; cases h
  | .list l, e, _, h => by rw [resolveValue] at h; cases h

theorem attrs_error : ∀ (attrs : List (String × Obj)) (e : PyErr), DistinctAttrs attrs → resolveAttrs vars attrs = .error e →
    e = .valueError ∧ Dangling vars attrs
  | [], e, _, h => by rw [resolveAttrs] at h; cases h
  | (a, x) :: rest, e, hd, h => by
    rw [resolveAttrs, resolveAttr] at h
    have hx0 : ∀ q, q ≠ [] → ∀ c at1, x = .inst c at1 → hasValue at1 = false →
        follow ((a, x) :: rest) (a :: q) = follow at1 q := by
      intro q hq c at1 e1 e2
      cases q with
      | nil => exact absurd rfl hq
      | cons b q =>
        rw [follow]
        simp [assoc, e1, e2]
    cases hx : resolveValue vars x with
    | error e' =>
      rw [hx] at h
      cases h
      obtain ⟨h1, h2⟩ := value_error x e (fun c at1 e1 e2 => by
        refine ⟨hd.2 [a] c at1 (by rw [follow]; simp [assoc, e1]), fun q c' at2 hq => ?_⟩
        cases q with
        | nil => cases hq
        | cons b q => exact hd.2 (a :: b :: q) c' at2 (by rw [hx0 _ (by simp) c at1 e1 e2]; exact hq)) hx
      refine ⟨h1, ?_⟩
      rcases h2 with ⟨n, e1, e2⟩ | ⟨c, at1, e1, e2, q, n, h3, h4⟩
      · exact ⟨[a], n, by rw [follow]; simp [assoc, e1], e2⟩
      · cases q with
        | nil => cases h3
        | cons b q => exact ⟨a :: b :: q, n, by rw [hx0 _ (by simp) c at1 e1 e2]; exact h3, h4⟩
    | ok x' =>
      rw [hx] at h
      simp only at h
      cases hr : resolveAttrs vars rest with
      | ok r => rw [hr] at h; cases h
      | error e' =>
        rw [hr] at h
        cases h
        obtain ⟨h1, p, n, h2, h3⟩ := attrs_error rest e (distinct_tail hd) hr
        cases p with
        | nil => cases h2
        | cons b q => exact ⟨h1, b :: q, n, follow_tail hd.1 h2, h3⟩
end

/-- a reference without a value somewhere in the pipeline -/
def Broken (vars : Dict String Val) (steps : List Obj) : Prop :=
  ∃ is p n, valueAt steps is p = some (.ref n) ∧ vars.get? n = none

theorem stepAt_nested {steps items : List Obj} {i : Nat} {c : String} {attrs : List (String × Obj)}
    (h1 : steps[i]? = some (.inst c attrs)) (h2 : assoc "pipeline_steps" attrs = some (.list items)) (j : Nat) (js : List Nat) :
    stepAt steps (i :: j :: js) = stepAt items (j :: js) := by
  rw [stepAt, h1]
  simp only [h2]

theorem stepAt_tail (s : Obj) (rest : List Obj) (i : Nat) (is : List Nat) :
    stepAt (s :: rest) ((i + 1) :: is) = stepAt rest (i :: is) := by
  rw [stepAt, stepAt]
  simp

mutual
theorem step_error : ∀ (s : Obj) (e : PyErr), Regular [s] → resolveStep vars s = .error e →
    e = .valueError ∧ Broken vars [s]
  | .inst c attrs, e, hs, h => by
    obtain ⟨c', attrs0, h1, hd, hl⟩ := hs [0] (.inst c attrs) rfl
    cases h1
    rw [resolveStep, nestedSteps_eq] at h
    cases hr : resolveAttrs vars attrs with
    | error e' =>
      rw [hr] at h
      cases h
      obtain ⟨h1, p, n, h2, h3⟩ := attrs_error attrs e hd hr
      exact ⟨h1, [0], p, n, h2, h3⟩
    | ok attrs' =>
      rw [hr] at h
      simp only at h
      cases ha : assoc "pipeline_steps" attrs with
      | none => rw [ha] at h; cases h
      | some x =>
        rw [ha] at h
        simp only at h
        obtain ⟨items, rfl⟩ := hl x ha
        cases hn : resolveSteps vars items with
        | ok items' => rw [nestedOf, hn] at h; cases h
        | error e' =>
          rw [nestedOf, hn] at h
          cases h
          have hreg : Regular items := by
            intro is s hs'
            cases is with
            | nil => cases hs'
            | cons j js => exact hs (0 :: j :: js) s (by rw [stepAt_nested rfl ha]; exact hs')
          have hrec : e = .valueError ∧ Broken vars items := by
            exact nested_error attrs items e ha hreg hn
          obtain ⟨h1, is, p, n, h2, h3⟩ := hrec
          refine ⟨h1, 0 :: is, p, n, ?_, h3⟩
          cases is with
          | nil => cases h2
          | cons j js =>
            unfold valueAt at h2 ⊢
            rw [stepAt_nested rfl ha]
            exact h2
  | .ref n, e, hs, _ => by obtain ⟨_, _, h1, -⟩ := hs [0] (.ref n) rfl; cases h1
  | .val v, e, hs, _ => by obtain ⟨_, _, h1, -⟩ := hs [0] (.val v) rfl; cases h1
  | .null, e, hs, _ => by obtain ⟨_, _, h1, -⟩ := hs [0] .null rfl; cases h1
  | .other t, e, hs, _ => by obtain ⟨_, _, h1, -⟩ := hs [0] (.other t) rfl; cases h1
  | .list l, e, hs, _ => by obtain ⟨_, _, h1, -⟩ := hs [0] (.list l) rfl; cases h1

theorem nested_error : ∀ (attrs : List (String × Obj)) (items : List Obj) (e : PyErr),
    assoc "pipeline_steps" attrs = some (.list items) → Regular items → resolveSteps vars items = .error e →
    e = .valueError ∧ Broken vars items
  | [], items, e, h, _, _ => by cases h
  | p :: rest, items, e, h, hr, hn => by
    by_cases ha : p.1 = "pipeline_steps"
    · exact pair_error p items e (by
        obtain ⟨a, x⟩ := p
        simp only at ha
        simpa [assoc, ha] using h) hr hn
    · exact nested_error rest items e (by
        obtain ⟨a, x⟩ := p
        simp only at ha
        simpa [assoc, ha] using h) hr hn

theorem pair_error : ∀ (p : String × Obj) (items : List Obj) (e : PyErr), p.2 = .list items → Regular items →
    resolveSteps vars items = .error e → e = .valueError ∧ Broken vars items
  | (_, .list l), items, e, h, hr, hn => by
    have : l = items := by cases h; rfl
    exact this ▸ steps_error l e (this ▸ hr) (this ▸ hn)
  | (_, .ref n), items, e, h, _, _ => by cases h
  | (_, .val n), items, e, h, _, _ => by cases h
  | (_, .null), items, e, h, _, _ => by cases h
  | (_, .other n), items, e, h, _, _ => by cases h
  | (_, .inst _ _), items, e, h, _, _ => by cases h

theorem steps_error : ∀ (steps : List Obj) (e : PyErr), Regular steps → resolveSteps vars steps = .error e →
    e = .valueError ∧ Broken vars steps
  | [], e, _, h => by rw [resolveSteps] at h; cases h
  | s :: rest, e, hs, h => by
    rw [resolveSteps] at h
    cases hx : resolveStep vars s with
    | error e' =>
      rw [hx] at h
      cases h
      obtain ⟨h1, is, p, n, h2, h3⟩ := step_error s e (fun is t ht => hs is t (by
        cases is with
        | nil => cases ht
        | cons i is =>
          cases i with
          | zero => rw [stepAt] at ht ⊢; simpa using ht
          | succ i => rw [stepAt] at ht; simp at ht)) hx
      refine ⟨h1, is, p, n, ?_, h3⟩
      cases is with
      | nil => cases h2
      | cons i is =>
        cases i with
        | zero =>
          unfold valueAt at h2 ⊢
          rw [stepAt] at h2 ⊢
          simpa using h2
        | succ i =>
          unfold valueAt at h2
          rw [stepAt] at h2
          simp at h2
    | ok s' =>
      rw [hx] at h
      simp only at h
      cases hr : resolveSteps vars rest with
      | ok r => rw [hr] at h; cases h
      | error e' =>
        rw [hr] at h
        cases h
        obtain ⟨h1, is, p, n, h2, h3⟩ := steps_error rest e (fun is t ht => by
          cases is with
          | nil => cases ht
          | cons i is => exact hs ((i + 1) :: is) t (by rw [stepAt_tail]; exact ht)) hr
        cases is with
        | nil => cases h2
        | cons i is =>
          refine ⟨h1, (i + 1) :: is, p, n, ?_, h3⟩
          unfold valueAt at h2 ⊢
          rw [stepAt_tail]
          exact h2
end

end Vars
end Verif
