import Verif.Serial.StepsSpec

/-!
# Helper lemmas: dumping and loading steps
-/

namespace Verif
namespace Serial

theorem fresh_tag (c : GenClass) (h : ∀ k, c = .pairsWithEdges k → k = .int 100) : c.tag.fresh = c := by
  cases c with
  | pairsWithEdges k => rw [h k rfl]; rfl
  | _ => rfl

theorem orDefault_eq_self {v d : PVal} : v.orDefault d = v ↔ v ≠ .none ∨ d = .none := by
  unfold PVal.orDefault
  split
  · rename_i h
    subst h
    simp
  · rename_i h
    simp [h]

theorem keptAttrs_iff (c : GenClass) (a : GenAttrs) :
    (c.tag.fresh = c ∧ initAttrs c.tag a = a) ↔ KeptAttrs c a := by
  obtain ⟨s, ch, n, sh⟩ := a
  unfold initAttrs
  simp only [GenAttrs.mk.injEq, orDefault_eq_self, true_and]
  cases c with
  | pairsWithEdges k =>
    simp only [GenClass.tag, GenTag.fresh, KeptAttrs, GenTag.chunkedDefault, GenTag.shuffleDefault, or_true, and_true,
      GenClass.pairsWithEdges.injEq]
    exact eq_comm
  | _ => simp [GenClass.tag, GenTag.fresh, KeptAttrs, GenTag.chunkedDefault, GenTag.shuffleDefault]

theorem loadGen_leaf {c : GenClass} (h : c ≠ .randomSample) (a : GenAttrs) :
    loadGen (.leaf c.tag a) = .ok (.leaf c.tag.fresh (initAttrs c.tag a)) := by
  cases c <;> first | rfl | exact absurd rfl h

theorem loadGen_nest {c : GenClass} (h : c ≠ .randomSample) (a : GenAttrs) (d : GenDict) :
    loadGen (.nest c.tag a d) = .ok (.raw c.tag.fresh (initAttrs c.tag a) d) := by
  cases c <;> first | rfl | exact absurd rfl h

theorem loadGen_sample (a : GenAttrs) (d : GenDict) :
    loadGen (.nest .randomSample a d) = (match loadGen d with
      | .ok g => .ok (.nest .randomSample (initAttrs .randomSample a) g)
      | .error e => .error e) := rfl

theorem loadGen_dump (g : Gen) : loadGen g.dump = .ok g ↔ GenKept g := by
  induction g with
  | leaf c a =>
    by_cases hc : c = .randomSample
    · subst hc
      constructor
      · intro h; cases h
      · intro h
        cases h with
        | leaf h _ => exact absurd rfl h
    · rw [Gen.dump, loadGen_leaf hc, Except.ok.injEq, Gen.leaf.injEq, keptAttrs_iff]
      constructor
      · exact fun h => .leaf hc h
      · intro h
        cases h with
        | leaf _ h => exact h
  | nest c a g ih =>
    by_cases hc : c = .randomSample
    · subst hc
      rw [Gen.dump]
      change loadGen (.nest .randomSample a g.dump) = _ ↔ _
      rw [loadGen_sample]
      have hka := keptAttrs_iff .randomSample a
      simp only [GenClass.tag, GenTag.fresh, true_and] at hka
      constructor
      · intro h
        split at h
        · rename_i g' hg'
          obtain ⟨-, h1, h2⟩ := Gen.nest.inj (Except.ok.inj h)
          exact .nest (hka.1 h1) (ih.1 (by rw [hg', h2]))
        · cases h
      · intro h
        cases h with
        | nest h1 h2 => rw [ih.2 h2]; simp only [hka.2 h1]
    · rw [Gen.dump, loadGen_nest hc]
      constructor
      · intro h; cases h
      · intro h
        cases h with
        | nest _ _ => exact absurd rfl hc
  | raw c a d =>
    by_cases hc : c = .randomSample
    · subst hc
      rw [Gen.dump]
      change loadGen (.nest .randomSample a d) = _ ↔ _
      rw [loadGen_sample]
      constructor
      · intro h
        split at h <;> cases h
      · intro h
        cases h with
        | raw h _ => exact absurd rfl h
    · rw [Gen.dump, loadGen_nest hc, Except.ok.injEq, Gen.raw.injEq, ← and_assoc, keptAttrs_iff]
      constructor
      · exact fun h => .raw hc h.1
      · intro h
        cases h with
        | raw _ h => exact ⟨h, rfl⟩

theorem dump_truthy (v : SVal) : v.dump.truthy = true ↔ v.true' := by
  cases v with
  | val v => rfl
  | gen g => simp [SVal.dump, DVal.truthy, SVal.true']

/-- a value after dumping and loading -/
def reload : SVal → Except PyErr SVal
  | .val x => .ok (.val x)
  | .gen g => match loadGen g.dump with
    | .ok g => .ok (.gen g)
    | .error e => .error e

theorem reload_self (v : SVal) : reload v = .ok v ↔ ∀ g, v = .gen g → GenKept g := by
  cases v with
  | val x => simp [reload]
  | gen g =>
    simp only [reload, SVal.gen.injEq, forall_eq']
    rw [← loadGen_dump]
    cases loadGen g.dump with
    | ok g' => simp
    | error e => simp

open Classical in
/-- one field -/
theorem initField_eq (kwargs : List (String × DVal)) (f : String) (d v : SVal) (hk : assoc f kwargs = some v.dump) :
    initField kwargs f d = if f ∈ stepParams ∧ v.true' then reload v else .ok d := by
  unfold initField
  by_cases hf : f ∈ stepParams
  · rw [if_pos hf]
    simp only [hk, hf, true_and]
    by_cases ht : v.true'
    · rw [if_pos ((dump_truthy v).2 ht), if_pos ht]
      cases v <;> rfl
    · rw [if_neg (fun h => ht ((dump_truthy v).1 h)), if_neg ht]
  · rw [if_neg hf, if_neg (fun h => hf h.1)]

theorem initField_self (kwargs : List (String × DVal)) (f : String) (d v : SVal) (hk : assoc f kwargs = some v.dump)
    (he : ∀ s, v ≠ .val (.enum s)) : initField kwargs f d = .ok v ↔ FieldKept f d v := by
  rw [initField_eq kwargs f d v hk]
  unfold FieldKept
  simp only [he, ne_eq, not_false_eq_true, implies_true, true_and]
  by_cases h : f ∈ stepParams ∧ v.true'
  · rw [if_pos h, reload_self]
    simp only [h, true_and, not_true_eq_false, or_self, false_and, or_false]
  · rw [if_neg h]
    have : f ∉ stepParams ∨ ¬ v.true' := by
      by_cases h1 : f ∈ stepParams
      · exact Or.inr (fun h2 => h ⟨h1, h2⟩)
      · exact Or.inl h1
    rw [Except.ok.injEq]
    constructor
    · exact fun e => Or.inr ⟨this, e.symm⟩
    · rintro (⟨h1, h2, -⟩ | ⟨-, e⟩)
      · exact absurd ⟨h1, h2⟩ h
      · exact e.symm

/-- all fields -/
theorem initFields_ok (kwargs : List (String × DVal)) (c : StepClass) (r : List (String × SVal)) :
    initFields kwargs c = .ok r ↔ List.Forall₂ (fun p q => p.1 = q.1 ∧ initField kwargs p.1 p.2 = .ok q.2) c r := by
  induction c generalizing r with
  | nil =>
    simp only [initFields, Except.ok.injEq, List.forall₂_nil_left_iff]
    exact eq_comm
  | cons p c ih =>
    obtain ⟨f, d⟩ := p
    rw [initFields, List.forall₂_cons_left_iff]
    constructor
    · intro h
      split at h
      · cases h
      · rename_i v hv
        split at h
        · cases h
        · rename_i r' hr
          obtain rfl := Except.ok.inj h
          exact ⟨(f, v), r', ⟨rfl, hv⟩, (ih r').1 hr, rfl⟩
    · rintro ⟨⟨f', v⟩, r', ⟨rfl, hv⟩, hr, rfl⟩
      simp only at hv
      rw [hv, (ih r').2 hr]

theorem assoc_dump {values : List (String × SVal)} (hn : (values.map Prod.fst).Nodup) {f : String} {v : SVal}
    (h : (f, v) ∈ values) : assoc f (values.map (fun p => (p.1, p.2.dump))) = some v.dump := by
  induction values with
  | nil => cases h
  | cons p l ih =>
    obtain ⟨g, w⟩ := p
    rw [List.map_cons, List.nodup_cons] at hn
    rcases List.mem_cons.1 h with e | h
    · obtain ⟨rfl, rfl⟩ := Prod.mk.inj e
      simp [assoc]
    · have : g ≠ f := by
        rintro rfl
        exact hn.1 (List.mem_map.2 ⟨_, h, rfl⟩)
      simp only [List.map_cons, assoc, if_neg this]
      exact ih hn.2 h

theorem isEnum_iff (v : SVal) : v.isEnum = true ↔ ∃ s, v = .val (.enum s) := by
  unfold SVal.isEnum
  split
  · rename_i s; simp
  · rename_i h
    constructor
    · intro h; cases h
    · rintro ⟨s, e⟩; exact absurd e (h s)

theorem checkEnums_ok (values r : List (String × SVal)) :
    checkEnums values = .ok r ↔ r = values ∧ ∀ p ∈ values, ∀ s, p.2 ≠ .val (.enum s) := by
  unfold checkEnums
  by_cases h : values.any (fun p => p.2.isEnum) = true
  · rw [if_pos h]
    rw [List.any_eq_true] at h
    obtain ⟨p, hp, hv⟩ := h
    obtain ⟨s, e⟩ := (isEnum_iff _).1 hv
    constructor
    · intro h; cases h
    · rintro ⟨-, h⟩
      exact absurd e (h p hp s)
  · rw [if_neg h, Except.ok.injEq]
    constructor
    · rintro rfl
      refine ⟨rfl, fun p hp s e => h ?_⟩
      rw [List.any_eq_true]
      exact ⟨p, hp, (isEnum_iff _).2 ⟨s, e⟩⟩
    · exact fun h => h.1.symm

theorem loadStep_simple (env : String → Option StepClass) (cls : String) (c : StepClass) (values : List (String × SVal))
    (hc : env cls = some c) (hf : HasFields c values) :
    loadStep env (Step.simple cls values).dump = .ok (.simple cls values) ↔
      List.Forall₂ (fun p q => FieldKept p.1 p.2 q.2) c values := by
  obtain ⟨h1, h2⟩ := hf
  rw [Step.dump, loadStep, hc]
  simp only
  have key : ∀ l : List (String × SVal), (∀ p ∈ l, p ∈ values) → l.map Prod.fst = c.map Prod.fst →
      ((List.Forall₂ (fun p q => p.1 = q.1 ∧ initField (values.map (fun p => (p.1, p.2.dump))) p.1 p.2 = .ok q.2) c l ∧
          ∀ p ∈ l, ∀ s, p.2 ≠ .val (.enum s)) ↔
        List.Forall₂ (fun p q => FieldKept p.1 p.2 q.2) c l) := by
    clear hc
    have hn : (values.map Prod.fst).Nodup := h1 ▸ h2
    clear h1 h2
    induction c with
    | nil =>
      intro l _ h
      cases l with
      | nil => simp
      | cons _ _ => cases h
    | cons p c ih =>
      intro l hl h
      cases l with
      | nil => cases h
      | cons q l =>
        rw [List.map_cons, List.map_cons, List.cons.injEq] at h
        have ih := ih l (fun x hx => hl x (by simp [hx])) h.2
        have ha := assoc_dump hn (hl q (by simp))
        obtain ⟨f, d⟩ := p
        obtain ⟨g, v⟩ := q
        have hfg : g = f := h.1
        subst hfg
        rw [List.forall₂_cons, List.forall₂_cons]
        simp only [List.mem_cons, forall_eq_or_imp, true_and]
        constructor
        · rintro ⟨⟨a1, a2⟩, a3, a4⟩
          exact ⟨(initField_self _ _ _ _ ha a3).1 a1, ih.1 ⟨a2, a4⟩⟩
        · rintro ⟨a1, a2⟩
          obtain ⟨b1, b2⟩ := ih.2 a2
          exact ⟨⟨(initField_self _ _ _ _ ha a1.1).2 a1, b1⟩, a1.1, b2⟩
  rw [← key values (fun _ h => h) h1, ← initFields_ok]
  constructor
  · intro h
    split at h
    · cases h
    · rename_i vs hvs
      split at h
      · cases h
      · rename_i vs' hck
        have e := (Step.simple.inj (Except.ok.inj h)).2
        subst e
        obtain ⟨rfl, h3⟩ := (checkEnums_ok _ _).1 hck
        exact ⟨hvs, h3⟩
  · rintro ⟨a, b⟩
    rw [a]
    simp only
    rw [(checkEnums_ok values values).2 ⟨rfl, b⟩]

mutual
theorem loadStep_dump (env : String → Option StepClass) : ∀ (s : Step), WellFormed env s →
    (loadStep env s.dump = .ok s ↔ StepKept env s)
  | .simple cls values, h => by
    cases h with
    | simple hc hf =>
      rw [loadStep_simple env cls _ values hc hf]
      constructor
      · exact fun h => .simple hc h
      · intro h
        cases h with
        | simple hc' h' =>
          rw [hc] at hc'
          obtain rfl := Option.some.inj hc'
          exact h'
  | .logic cls steps exit display, h => by
    cases h with
    | logic hs =>
      have ih := loadSteps_dump env steps hs
      rw [Step.dump, loadStep]
      constructor
      · intro h
        split at h
        · cases h
        · rename_i r hr
          obtain ⟨-, e1, -, e2⟩ := Step.logic.inj (Except.ok.inj h)
          rw [e1] at hr
          refine .logic (ih.1 hr) ?_
          split at e2
          · rename_i ht; exact Or.inr ht
          · exact Or.inl e2.symm
      · intro h
        cases h with
        | logic h1 h2 =>
          rw [ih.2 h1]
          simp only
          rcases h2 with rfl | h2
          · rfl
          · rw [if_pos h2]

theorem loadSteps_dump (env : String → Option StepClass) : ∀ (l : List Step), (∀ s ∈ l, WellFormed env s) →
    (loadSteps env (dumpSteps l) = .ok l ↔ ∀ s ∈ l, StepKept env s)
  | [], _ => by simp [dumpSteps, loadSteps]
  | s :: l, h => by
    have h1 := loadStep_dump env s (h s (by simp))
    have h2 := loadSteps_dump env l (fun x hx => h x (by simp [hx]))
    rw [dumpSteps, loadSteps]
    simp only [List.mem_cons, forall_eq_or_imp]
    rw [← h1, ← h2]
    constructor
    · intro h
      split at h
      · cases h
      · rename_i s' hs'
        split at h
        · cases h
        · rename_i r hr
          obtain ⟨rfl, rfl⟩ := List.cons.inj (Except.ok.inj h)
          exact ⟨hs', hr⟩
    · rintro ⟨a, b⟩
      rw [a, b]
end

end Serial
end Verif
