import Verif.Eject.Spec
import Verif.Serial.StepsLemmas

/-!
# Helper lemmas: resolving variables, loading ejected files
-/

namespace Verif
namespace Serial
namespace Eject

theorem bind_ok_iff {α β : Type} {x : Except PyErr α} {f : α → Except PyErr β} {b : β} :
    (x >>= f) = .ok b ↔ ∃ a, x = .ok a ∧ f a = .ok b := by
  cases x with
  | error e => simp [bind, Except.bind]
  | ok a => simp [bind, Except.bind]

theorem pure_ok {α : Type} {a b : α} : (pure a : Except PyErr α) = .ok b ↔ a = b := by
  simp [pure, Except.pure]

/-- a property of values that resolving gives to every value -/
def Resolved (vars : List (String × PVal)) (v v' : PVal) : Prop := resolveVal vars v = .ok v'

theorem resolved_plain {vars : List (String × PVal)} (hp : PlainValues vars) {v v' : PVal} (h : resolveVal vars v = .ok v')
    (n : String) : v' ≠ .ref n := by
  unfold resolveVal at h
  split at h
  · split at h
    · rename_i x hx
      cases h
      unfold value at hx
      have hm : ∀ l : List (String × PVal), ∀ k, assoc k l = some v' → ∃ p ∈ l, p.2 = v' := by
        intro l k
        induction l with
        | nil => intro h; cases h
        | cons a l ih =>
          intro h
          obtain ⟨k', b⟩ := a
          unfold assoc at h
          split at h
          · cases h; exact ⟨_, List.mem_cons_self, rfl⟩
          · obtain ⟨p, h1, h2⟩ := ih h
            exact ⟨p, List.mem_cons_of_mem _ h1, h2⟩
      obtain ⟨p, h1, h2⟩ := hm _ _ hx
      rw [← h2]
      exact hp p (List.mem_reverse.1 h1) n
    · cases h
  · rename_i h1
    cases h
    exact h1 n

theorem resolved_self (vars : List (String × PVal)) {v : PVal} (h : ∀ n, v ≠ .ref n) : resolveVal vars v = .ok v := by
  cases v with
  | ref n => exact absurd rfl (h n)
  | _ => rfl

theorem resolved_total {vars : List (String × PVal)} {v : PVal} (h : ∀ n, v = .ref n → n ∈ vars.map Prod.fst) :
    ∃ v', resolveVal vars v = .ok v' := by
  cases v with
  | ref n =>
    unfold resolveVal value
    cases hx : assoc n vars.reverse with
    | none =>
      rw [assoc_eq_none_iff] at hx
      exact absurd (by simpa using h n rfl) hx
    | some v => exact ⟨v, by simp only [hx]⟩
  | _ => exact ⟨_, rfl⟩

/-! ### values without references stay -/

theorem attrs_self (vars : List (String × PVal)) {a : GenAttrs} (h : ∀ v ∈ attrVals a, ∀ n, v ≠ .ref n) :
    resolveAttrs vars a = .ok a := by
  obtain ⟨s, c, n, k⟩ := a
  have hv := fun v hv => resolved_self vars (h v hv)
  unfold resolveAttrs
  cases s with
  | none =>
    simp only [attrVals, List.nil_append, List.mem_cons, List.not_mem_nil, or_false, forall_eq_or_imp, forall_eq] at hv
    simp only [hv, resolveSettings]
    rfl
  | some p =>
    obtain ⟨lo, hi⟩ := p
    simp only [attrVals, List.cons_append, List.nil_append, List.mem_cons, List.not_mem_nil, or_false, forall_eq_or_imp,
      forall_eq] at hv
    simp only [hv, resolveSettings]
    rfl

theorem class_self (vars : List (String × PVal)) {c : GenClass} (h : ∀ v ∈ classVals c, ∀ n, v ≠ .ref n) :
    resolveClass vars c = .ok c := by
  cases c with
  | pairsWithEdges k =>
    simp only [resolveClass, resolved_self vars (h k (by simp [classVals]))]
    rfl
  | _ => rfl

theorem gen_self (vars : List (String × PVal)) {g : Gen} (h : ∀ n, ¬ GenHolds (.ref n) g) : resolveGen vars g = .ok g := by
  induction g with
  | leaf c a =>
    unfold resolveGen
    rw [class_self vars (fun v hv n he => h n (.leafClass _ _ (he ▸ hv))),
      attrs_self vars (fun v hv n he => h n (.leaf _ _ (he ▸ hv)))]
    rfl
  | nest c a g ih =>
    unfold resolveGen
    rw [class_self vars (fun v hv n he => h n (.nestClass _ _ _ (he ▸ hv))),
      attrs_self vars (fun v hv n he => h n (.nest _ _ _ (he ▸ hv))), ih (fun n hg => h n (.inner _ _ _ hg))]
    rfl
  | raw c a d =>
    unfold resolveGen
    rw [class_self vars (fun v hv n he => h n (.rawClass _ _ _ (he ▸ hv))),
      attrs_self vars (fun v hv n he => h n (.raw _ _ _ (he ▸ hv)))]
    rfl

theorem fields_self (vars : List (String × PVal)) : ∀ {values : List (String × SVal)},
    (∀ f v, (f, SVal.val v) ∈ values → ∀ n, v ≠ .ref n) → (∀ f g, (f, SVal.gen g) ∈ values → ∀ n, ¬ GenHolds (.ref n) g) →
    resolveFields vars values = .ok values
  | [], _, _ => rfl
  | (f, v) :: l, h1, h2 => by
    have hr : resolveField vars v = .ok v := by
      cases v with
      | val v => simp only [resolveField, resolved_self vars (h1 f v List.mem_cons_self)]; rfl
      | gen g => simp only [resolveField, gen_self vars (h2 f g List.mem_cons_self)]; rfl
    unfold resolveFields
    rw [hr, fields_self vars (fun f v h => h1 f v (List.mem_cons_of_mem _ h))
      (fun f g h => h2 f g (List.mem_cons_of_mem _ h))]
    rfl

mutual
theorem step_self (vars : List (String × PVal)) : ∀ {s : Step}, (∀ n, ¬ StepHolds (.ref n) s) → resolveStep vars s = .ok s
  | .simple cls values, h => by
    unfold resolveStep
    rw [fields_self vars (fun f v hm n he => h n (.field _ _ f (he ▸ hm))) (fun f g hm n hg => h n (.gen _ _ f g hm hg))]
    rfl
  | .logic cls steps exit display, h => by
    unfold resolveStep
    rw [resolved_self vars (fun n he => h n (he ▸ .display _ _ _)),
      steps_self vars (fun s hs n hh => h n (.inside _ _ _ _ s hs hh))]
    rfl

theorem steps_self (vars : List (String × PVal)) : ∀ {l : List Step}, (∀ s ∈ l, ∀ n, ¬ StepHolds (.ref n) s) →
    resolveSteps vars l = .ok l
  | [], _ => rfl
  | s :: l, h => by
    unfold resolveSteps
    rw [step_self vars (h s List.mem_cons_self), steps_self vars (fun t ht => h t (List.mem_cons_of_mem _ ht))]
    rfl
end

/-! ### no reference is left -/

theorem attrs_plain {vars : List (String × PVal)} (hp : PlainValues vars) {a a' : GenAttrs}
    (h : resolveAttrs vars a = .ok a') : ∀ v ∈ attrVals a', ∀ n, v ≠ .ref n := by
  obtain ⟨s, c, k, sh⟩ := a
  unfold resolveAttrs at h
  simp only at h
  cases s with
  | none =>
    simp only [resolveSettings, bind_ok_iff, pure_ok] at h
    obtain ⟨s', rfl, c', hc, k', hk, sh', hsh, rfl⟩ := h
    simp only [attrVals, List.nil_append, List.mem_cons, List.not_mem_nil, or_false, forall_eq_or_imp, forall_eq]
    exact ⟨resolved_plain hp hc, resolved_plain hp hk, resolved_plain hp hsh⟩
  | some p =>
    obtain ⟨lo, hi⟩ := p
    simp only [resolveSettings, bind_ok_iff, pure_ok] at h
    obtain ⟨s', ⟨lo', hlo, hi', hhi, rfl⟩, c', hc, k', hk, sh', hsh, rfl⟩ := h
    simp only [attrVals, List.cons_append, List.nil_append, List.mem_cons, List.not_mem_nil, or_false, forall_eq_or_imp,
      forall_eq]
    exact ⟨resolved_plain hp hlo, resolved_plain hp hhi, resolved_plain hp hc, resolved_plain hp hk, resolved_plain hp hsh⟩

theorem class_plain {vars : List (String × PVal)} (hp : PlainValues vars) {c c' : GenClass}
    (h : resolveClass vars c = .ok c') : ∀ v ∈ classVals c', ∀ n, v ≠ .ref n := by
  cases c with
  | pairsWithEdges k =>
    unfold resolveClass at h
    simp only [bind_ok_iff, pure_ok] at h
    obtain ⟨k', hk, rfl⟩ := h
    simp only [classVals, List.mem_singleton, forall_eq]
    exact resolved_plain hp hk
  | _ =>
    simp only [resolveClass, pure_ok] at h
    subst h
    intro v hv
    cases hv

theorem gen_plain {vars : List (String × PVal)} (hp : PlainValues vars) {g g' : Gen}
    (h : resolveGen vars g = .ok g') : ∀ n, ¬ GenHolds (.ref n) g' := by
  induction g generalizing g' with
  | leaf c a =>
    unfold resolveGen at h
    simp only [bind_ok_iff, pure_ok] at h
    obtain ⟨c', hc, a', ha, rfl⟩ := h
    intro n hn
    cases hn with
    | leafClass _ _ hm => exact class_plain hp hc _ hm n rfl
    | leaf _ _ hm => exact attrs_plain hp ha _ hm n rfl
  | nest c a g ih =>
    unfold resolveGen at h
    simp only [bind_ok_iff, pure_ok] at h
    obtain ⟨c', hc, a', ha, g1, hg, rfl⟩ := h
    intro n hn
    cases hn with
    | nestClass _ _ _ hm => exact class_plain hp hc _ hm n rfl
    | nest _ _ _ hm => exact attrs_plain hp ha _ hm n rfl
    | inner _ _ _ hm => exact ih hg n hm
  | raw c a d =>
    unfold resolveGen at h
    simp only [bind_ok_iff, pure_ok] at h
    obtain ⟨c', hc, a', ha, rfl⟩ := h
    intro n hn
    cases hn with
    | rawClass _ _ _ hm => exact class_plain hp hc _ hm n rfl
    | raw _ _ _ hm => exact attrs_plain hp ha _ hm n rfl

theorem fields_plain {vars : List (String × PVal)} (hp : PlainValues vars) : ∀ {values values' : List (String × SVal)},
    resolveFields vars values = .ok values' →
    (∀ f v, (f, SVal.val v) ∈ values' → ∀ n, v ≠ .ref n) ∧ (∀ f g, (f, SVal.gen g) ∈ values' → ∀ n, ¬ GenHolds (.ref n) g)
  | [], _, h => by
    simp only [resolveFields, pure_ok] at h
    subst h
    exact ⟨fun _ _ h => (nomatch h), fun _ _ h => (nomatch h)⟩
  | (f, v) :: l, values', h => by
    unfold resolveFields at h
    simp only [bind_ok_iff, pure_ok] at h
    obtain ⟨v', hv, l', hl, rfl⟩ := h
    obtain ⟨h1, h2⟩ := fields_plain hp hl
    constructor
    · intro f1 x hm n
      rcases List.mem_cons.1 hm with he | hm
      · obtain ⟨rfl, rfl⟩ := Prod.mk.inj he
        cases v with
        | val y =>
          unfold resolveField at hv
          simp only [bind_ok_iff, pure_ok] at hv
          obtain ⟨z, hz, hzx⟩ := hv
          cases hzx
          exact resolved_plain hp hz n
        | gen g =>
          unfold resolveField at hv
          simp only [bind_ok_iff, pure_ok, reduceCtorEq, and_false, exists_false] at hv
      · exact h1 _ _ hm n
    · intro f1 x hm n
      rcases List.mem_cons.1 hm with he | hm
      · obtain ⟨rfl, rfl⟩ := Prod.mk.inj he
        cases v with
        | gen y =>
          unfold resolveField at hv
          simp only [bind_ok_iff, pure_ok] at hv
          obtain ⟨z, hz, hzx⟩ := hv
          cases hzx
          exact gen_plain hp hz n
        | val g =>
          unfold resolveField at hv
          simp only [bind_ok_iff, pure_ok, reduceCtorEq, and_false, exists_false] at hv
      · exact h2 _ _ hm n

mutual
theorem step_plain {vars : List (String × PVal)} (hp : PlainValues vars) : ∀ {s s' : Step}, resolveStep vars s = .ok s' →
    ∀ n, ¬ StepHolds (.ref n) s'
  | .simple cls values, s', h => by
    unfold resolveStep at h
    simp only [bind_ok_iff, pure_ok] at h
    obtain ⟨v', hv, rfl⟩ := h
    obtain ⟨h1, h2⟩ := fields_plain hp hv
    intro n hn
    cases hn with
    | field _ _ f hm => exact h1 f _ hm n rfl
    | gen _ _ f g hm hg => exact h2 f g hm n hg
  | .logic cls steps exit display, s', h => by
    unfold resolveStep at h
    simp only [bind_ok_iff, pure_ok] at h
    obtain ⟨d', hd, l', hl, rfl⟩ := h
    intro n hn
    cases hn with
    | display => exact resolved_plain hp hd n rfl
    | inside _ _ _ _ s hs hh => exact steps_plain hp hl s hs n hh

theorem steps_plain {vars : List (String × PVal)} (hp : PlainValues vars) : ∀ {l l' : List Step},
    resolveSteps vars l = .ok l' → ∀ s ∈ l', ∀ n, ¬ StepHolds (.ref n) s
  | [], l', h => by
    simp only [resolveSteps, pure_ok] at h
    subst h
    intro s hs
    cases hs
  | s :: l, l', h => by
    unfold resolveSteps at h
    simp only [bind_ok_iff, pure_ok] at h
    obtain ⟨s', hs, l1, hl, rfl⟩ := h
    intro t ht n
    rcases List.mem_cons.1 ht with rfl | ht
    · exact step_plain hp hs n
    · exact steps_plain hp hl t ht n
end

/-! ### classes with an enumeration default -/

theorem initField_other (kwargs : List (String × DVal)) {f : String} (d : SVal) (h : f ∉ stepParams) :
    initField kwargs f d = .ok d := by
  unfold initField
  rw [if_neg h]

theorem initFields_mem (kwargs : List (String × DVal)) : ∀ {c : StepClass} {r : List (String × SVal)} {f : String} {d : SVal},
    initFields kwargs c = .ok r → (f, d) ∈ c → f ∉ stepParams → (f, d) ∈ r
  | [], _, _, _, _, hm, _ => nomatch hm
  | (f', d') :: l, r, f, d, h, hm, hf => by
    unfold initFields at h
    split at h
    · cases h
    · rename_i v hv
      split at h
      · cases h
      · rename_i r' hr
        cases h
        rcases List.mem_cons.1 hm with he | hm
        · obtain ⟨rfl, rfl⟩ := Prod.mk.inj he
          rw [initField_other _ _ hf] at hv
          cases hv
          exact List.mem_cons_self
        · exact List.mem_cons_of_mem _ (initFields_mem kwargs hr hm hf)

theorem simple_fails {classes : String → Option StepClass} {cls : String} (h : EnumDefault classes cls)
    (kwargs : List (String × DVal)) : ∃ e, loadStep classes (.simple cls kwargs) = .error e := by
  obtain ⟨c, f, s, hc, hm, hf⟩ := h
  rw [loadStep, hc]
  simp only
  split
  · exact ⟨_, rfl⟩
  · rename_i values hv
    have hin := initFields_mem kwargs hv hm hf
    have : checkEnums values = .error .typeError := by
      unfold checkEnums
      rw [if_pos]
      exact List.any_eq_true.2 ⟨_, hin, rfl⟩
    rw [this]
    exact ⟨_, rfl⟩

mutual
theorem step_fails {classes : String → Option StepClass} {cls : String} (h : EnumDefault classes cls) :
    ∀ {s : Step}, HasClass cls s → ∃ e, loadStep classes s.dump = .error e
  | .simple c values, hc => by
    cases hc with
    | here => rw [Step.dump]; exact simple_fails h _
  | .logic c steps exit display, hc => by
    cases hc with
    | inside _ _ _ _ s hs hh =>
      obtain ⟨e, he⟩ := steps_fails h ⟨s, hs, hh⟩
      rw [Step.dump, loadStep, he]
      exact ⟨_, rfl⟩

theorem steps_fails {classes : String → Option StepClass} {cls : String} (h : EnumDefault classes cls) :
    ∀ {l : List Step}, (∃ s ∈ l, HasClass cls s) → ∃ e, loadSteps classes (dumpSteps l) = .error e
  | [], hc => by
    obtain ⟨s, hs, -⟩ := hc
    cases hs
  | s :: l, hc => by
    rw [dumpSteps, loadSteps]
    cases h1 : loadStep classes s.dump with
    | error e => exact ⟨_, rfl⟩
    | ok s' =>
      obtain ⟨t, ht, hh⟩ := hc
      rcases List.mem_cons.1 ht with hts | ht
      · rw [hts] at hh
        obtain ⟨e, he⟩ := step_fails h hh
        rw [he] at h1
        cases h1
      · obtain ⟨e, he⟩ := steps_fails h ⟨t, ht, hh⟩
        simp only [he]
        exact ⟨_, rfl⟩
end

/-! resolving keeps the classes -/

mutual
theorem step_class {vars : List (String × PVal)} {cls : String} : ∀ {s s' : Step}, resolveStep vars s = .ok s' →
    HasClass cls s → HasClass cls s'
  | .simple c values, s', h, hc => by
    unfold resolveStep at h
    simp only [bind_ok_iff, pure_ok] at h
    obtain ⟨v', hv, rfl⟩ := h
    cases hc with
    | here => exact .here _
  | .logic c steps exit display, s', h, hc => by
    unfold resolveStep at h
    simp only [bind_ok_iff, pure_ok] at h
    obtain ⟨d', hd, l', hl, rfl⟩ := h
    cases hc with
    | inside _ _ _ _ s hs hh =>
      obtain ⟨t, ht, hh⟩ := steps_class hl ⟨s, hs, hh⟩
      exact .inside _ _ _ _ t ht hh

theorem steps_class {vars : List (String × PVal)} {cls : String} : ∀ {l l' : List Step}, resolveSteps vars l = .ok l' →
    (∃ s ∈ l, HasClass cls s) → ∃ s ∈ l', HasClass cls s
  | [], l', h, hc => by
    obtain ⟨s, hs, -⟩ := hc
    cases hs
  | s :: l, l', h, hc => by
    unfold resolveSteps at h
    simp only [bind_ok_iff, pure_ok] at h
    obtain ⟨s', hs, l1, hl, rfl⟩ := h
    obtain ⟨t, ht, hh⟩ := hc
    rcases List.mem_cons.1 ht with hts | ht
    · rw [hts] at hh
      exact ⟨s', List.mem_cons_self, step_class hs hh⟩
    · obtain ⟨t', h1, h2⟩ := steps_class hl ⟨t, ht, hh⟩
      exact ⟨t', List.mem_cons_of_mem _ h1, h2⟩
end

/-! ### the factory and the files -/

theorem factory_ok {a : Algo} {m : Model} (h : factory a = .ok m) :
    m.original = a ∧ m.algorithm.vars = a.vars ∧ m.algorithm.edgeTypes = a.edgeTypes ∧ m.algorithm.name = a.name ∧
    (a.vars = [] → m.algorithm.steps = a.steps) ∧ (a.vars ≠ [] → resolveSteps a.vars a.steps = .ok m.algorithm.steps) := by
  unfold factory at h
  simp only [bind_ok_iff, pure_ok] at h
  obtain ⟨steps, h1, x, h2, rfl⟩ := h
  refine ⟨rfl, rfl, rfl, rfl, fun hv => ?_, fun hv => ?_⟩
  · rw [resolveAll, if_pos hv] at h1
    cases h1
    rfl
  · rwa [resolveAll, if_neg hv] at h1

theorem load_kept {classes : String → Option StepClass} {a : Algo} (hs : Survives classes a.steps) (he : a.edgeTypes = [])
    (vars : List (String × PVal)) : load classes { a.dump with vars := vars } = .ok { a with vars := vars } := by
  unfold load loadAlg
  have h1 := (loadSteps_dump classes a.steps (fun s h => (hs s h).1)).2 (fun s h => (hs s h).2)
  simp only [Algo.dump, AlgObj.dump, h1, he]
  obtain ⟨⟨n, s, e⟩, v⟩ := a
  simp only at he
  subst he
  rfl

theorem cli_load {ι R δ : Type} (w : World) (run : List Step → Cli.ModelClass ι R δ)
    (document : Except PyErr (Data.Json ι R)) (path : String) :
    (w.cli run document).load path = match loadModel w path with
      | .ok m => .ok (run m.algorithm.steps)
      | .error e => .error e := rfl

theorem loadModel_write (w : World) (path : String) (d : AlgoDict) :
    loadModel (w.write path d) path = (load w.classes d >>= factory) := by
  unfold loadModel World.read World.write
  simp only [if_true]
  rfl

theorem loadModel_fails {w : World} {path : String} {a : Algo} (name : String) (vars : List (String × PVal))
    (h : a.edgeTypes ≠ [] ∨ ∃ cls, EnumDefault w.classes cls ∧ ∃ s ∈ a.steps, HasClass cls s) :
    ∃ e, loadModel (w.write path { a.dump with name := name, vars := vars }) path = .error e := by
  rw [loadModel_write]
  unfold load loadAlg
  simp only [Algo.dump, AlgObj.dump]
  cases hl : loadSteps w.classes (dumpSteps a.steps) with
  | error e => exact ⟨e, rfl⟩
  | ok steps =>
    rcases h with h | ⟨cls, h1, h2⟩
    · simp only
      change ∃ e, factory _ = _
      unfold factory
      simp only
      generalize resolveAll _ = x
      cases x with
      | error e => exact ⟨e, rfl⟩
      | ok y =>
        cases he : a.edgeTypes with
        | nil => exact absurd he h
        | cons t l => exact ⟨.attributeError, rfl⟩
    · obtain ⟨e, he⟩ := steps_fails h1 h2
      rw [hl] at he
      cases he

end Eject
end Serial
end Verif
