import Verif.Mixins.Lemmas

/-!
# The query methods of graphs over a history of factory calls (C118, C119)
-/

namespace Verif
open Mixins
variable {γ : Type} [DecidableEq γ]

/-! ## C118 -/

/-- **C118 (which methods).** After any history of factory calls, with any iteration order of the sets and whether or not
some of the calls raised, a method exists on the graphs of the process exactly if one of the original base classes or one of the
mixins of the successful calls provides it; otherwise the access raises `AttributeError`. -/
theorem C118_methods (w : World γ) (hw : ∀ c, (w.order c).Nodup ∧ c ∈ w.order c) (start : List γ) (hs : start.Nodup)
    (hl : Compatible (start.map w.order ++ [start])) (hist : List (Alg γ)) (bases : List γ)
    (h : After w start hist bases) (name : String) :
    ((∃ c, lookup w bases name = .ok c) ↔ ∃ c, (c ∈ start ∨ Declared w hist c) ∧ Provides w c name) ∧
    ((¬ ∃ c, lookup w bases name = .ok c) → lookup w bases name = .error .attributeError) := by
  obtain ⟨h1, h2, h3⟩ := after_spec hs ((linearise_iff w start hs (fun c => (hw c).1)).2 hl) h
  obtain ⟨k1, k2, _⟩ := lookup_iff h1 (fun c => (hw c).1) (fun c => (hw c).2) h2 name
  refine ⟨k1.trans ?_, k2⟩
  constructor
  · rintro ⟨c, hc, hp⟩; exact ⟨c, (h3 c).1 hc, hp⟩
  · rintro ⟨c, hc, hp⟩; exact ⟨c, (h3 c).2 hc, hp⟩

/-- **C118 (never lost).** A factory call never takes a method away, whatever the algorithm, and whether or not it raises. -/
theorem C118_never_lost (w : World γ) (hw : ∀ c, (w.order c).Nodup ∧ c ∈ w.order c) (start : List γ) (hs : start.Nodup)
    (hl : Compatible (start.map w.order ++ [start])) (hist more : List (Alg γ)) (bases later : List γ)
    (h : After w start hist bases) (h' : After w bases more later) (name : String)
    (hm : ∃ c, lookup w bases name = .ok c) : ∃ c, lookup w later name = .ok c := by
  obtain ⟨h1, h2, h3⟩ := after_spec hs ((linearise_iff w start hs (fun c => (hw c).1)).2 hl) h
  obtain ⟨k1, k2, k3⟩ := after_spec h1 h2 h'
  obtain ⟨c, hc, hp⟩ := (lookup_iff h1 (fun c => (hw c).1) (fun c => (hw c).2) h2 name).1.1 hm
  exact (lookup_iff k1 (fun c => (hw c).1) (fun c => (hw c).2) k2 name).1.2 ⟨c, (k3 c).2 (.inl hc), hp⟩

/-- **C118 (no conflict).** If none of the original base classes and of the mixins in use inherits from another one, no factory
call raises, whatever the order of the set; it always installs the mixins of its algorithm. -/
theorem C118_no_conflict (w : World γ) (start : List γ) (hs : start.Nodup) (hist : List (Alg γ)) (bases : List γ)
    (h : After w start hist bases) (a : Alg γ) (hu : Unrelated w (fun c => c ∈ start ∨ Declared w (hist ++ [a]) c)) :
    (∀ e, ¬ Call w a bases (.error e)) ∧ ∃ new, Call w a bases (.ok new) := by
  have hl : ∃ r, linearise w start = some r := by
    obtain ⟨T, hT, hu⟩ := hu
    exact unrelated_linearise w start hs ⟨T, hT, fun c hc => hu c (.inl hc)⟩
  obtain ⟨h1, h2, h3⟩ := after_spec hs hl h
  have key : ∀ new : List γ, new.Perm (bases ++ a.mixins w).dedup → ∃ r, linearise w new = some r := by
    intro new hp
    refine unrelated_linearise w new (hp.nodup_iff.2 (List.nodup_dedup _)) ?_
    obtain ⟨T, hT, hu⟩ := hu
    refine ⟨T, hT, fun c hc => hu c ?_⟩
    change c ∈ new at hc
    rw [hp.mem_iff, List.mem_dedup, List.mem_append, h3 c, mem_mixins] at hc
    rcases hc with (hc | ⟨b, hb, hc⟩) | hc
    · exact .inl hc
    · exact .inr ⟨b, List.mem_append_left _ hb, hc⟩
    · exact .inr ⟨a, List.mem_append_right _ (List.mem_singleton.2 rfl), hc⟩
  constructor
  · intro e hc
    cases hc with
    | conflict new hp hm =>
      obtain ⟨r, hr⟩ := key new hp
      rw [hm] at hr; cases hr
  · obtain ⟨r, hr⟩ := key _ (List.Perm.refl _)
    exact ⟨_, .done _ r (List.Perm.refl _) hr⟩

/-! ### The classes of the package -/

theorem shipped_ok : ∀ c, (shipped.order c).Nodup ∧ c ∈ shipped.order c := by
  intro c; cases c <;> decide

theorem shipped_start : Compatible (graphBases.map shipped.order ++ [graphBases]) :=
  ⟨[.baseModel, .base, .obj], by decide, by decide⟩

/-- the shipped mixins are unrelated -/
theorem shipped_unrelated (P : Cls → Prop) (h : ∀ c, P c → c ≠ .abc ∧ c ≠ .obj) : Unrelated shipped P := by
  refine ⟨[.abc, .obj], by decide, fun c hc => ?_⟩
  obtain ⟨h1, h2⟩ := h c hc
  cases c <;> first | exact absurd rfl h1 | exact absurd rfl h2 | (refine ⟨by decide, _, rfl, by decide⟩)

/-- **C118 (the package).** As soon as one of the shipped algorithms has been created, which importing any orientation rule
does, the rules find `only_directed_edge_exists`, whatever other algorithms over the package's edge types and extensions follow,
and none of these calls raises.  The manager, which `create_graph_from_data` returns, never has this method. -/
theorem C118_shipped (more : List (Alg Cls)) (hm : ∀ a ∈ more, ∀ c, c ∈ a.edgeTypes ∨ (∃ es, a.extensions = some es ∧ c ∈ es) →
      c ∈ [Cls.directed, .edgeType, .extension, .inducing]) (bases : List Cls)
    (h : After shipped graphBases (pcAlg :: more) bases) :
    lookup shipped bases "only_directed_edge_exists" = .ok .directed ∧
    lookup shipped bases "directed_paths" = .ok .directed ∧
    lookup shipped bases "edge_exists" = .ok .base ∧
    (∀ a, (∀ c, c ∈ a.edgeTypes ∨ (∃ es, a.extensions = some es ∧ c ∈ es) →
      c ∈ [Cls.directed, .edgeType, .extension, .inducing]) → (∀ e, ¬ Call shipped a bases (.error e)) ∧
      ∃ new, Call shipped a bases (.ok new)) ∧
    lookup shipped managerBases "only_directed_edge_exists" = .error .attributeError ∧
    lookup shipped managerBases "directed_paths" = .error .attributeError ∧
    lookup shipped managerBases "edge_exists" = .ok .base := by
  have hlin := (linearise_iff shipped graphBases (by decide) (fun c => (shipped_ok c).1)).2 shipped_start
  obtain ⟨h1, h2, h3⟩ := after_spec (by decide) hlin h
  have pcdecl : ∀ c, c ∈ [Cls.directed, .edgeType, .extension] → Declared shipped (pcAlg :: more) c := by
    intro c hc
    refine ⟨pcAlg, List.mem_cons_self, ?_, ?_⟩
    · simp only [List.mem_cons, List.not_mem_nil, or_false] at hc
      rcases hc with rfl | rfl | rfl <;> rfl
    · simp only [List.mem_cons, List.not_mem_nil, or_false] at hc
      rcases hc with rfl | rfl | rfl
      · exact .inl (by decide)
      · exact .inl (by decide)
      · exact .inr ⟨_, rfl, by decide⟩
  have small : ∀ hist : List (Alg Cls), (∀ a ∈ hist, ∀ c, c ∈ a.edgeTypes ∨ (∃ es, a.extensions = some es ∧ c ∈ es) →
      c ∈ [Cls.directed, .edgeType, .extension, .inducing]) → ∀ c, c ∈ graphBases ∨ Declared shipped hist c →
      c ∈ [Cls.baseModel, .base, .directed, .edgeType, .extension, .inducing] := by
    intro hist hh c hc
    rcases hc with hc | ⟨a, ha, _, hc⟩
    · revert hc; cases c <;> decide
    · have := hh a ha c hc
      revert this; cases c <;> decide
  have hpc : ∀ a ∈ pcAlg :: more, ∀ c, c ∈ a.edgeTypes ∨ (∃ es, a.extensions = some es ∧ c ∈ es) →
      c ∈ [Cls.directed, .edgeType, .extension, .inducing] := by
    intro a ha c hc
    rcases List.mem_cons.1 ha with rfl | ha
    · rcases hc with hc | ⟨es, he, hc⟩
      · revert hc; cases c <;> decide
      · cases he; revert hc; cases c <;> decide
    · exact hm a ha c hc
  have only : ∀ (name : String) (p : Cls), (∀ c, shipped.defines c name = true → c ≠ .interface → c = p) → p ∈ bases →
      shipped.defines p name = true → lookup shipped bases name = .ok p := by
    intro name p hun hp hdef
    obtain ⟨k1, _, k3⟩ := lookup_iff h1 (fun c => (shipped_ok c).1) (fun c => (shipped_ok c).2) h2 name
    obtain ⟨c, hc⟩ := k1.2 ⟨p, hp, p, (shipped_ok p).2, hdef⟩
    obtain ⟨d1, b, hb, d2⟩ := k3 c hc
    rw [hc, hun c d1 ?_]
    rintro rfl
    have hb' := small _ hpc b ((h3 b).1 hb)
    revert d2 hb'
    cases b <;> decide
  refine ⟨only _ _ (by intro c; cases c <;> decide) ((h3 _).2 (.inr (pcdecl _ (by decide)))) (by decide),
    only _ _ (by intro c; cases c <;> decide) ((h3 _).2 (.inr (pcdecl _ (by decide)))) (by decide),
    only _ _ (by intro c; cases c <;> decide) ((h3 _).2 (.inl (by decide))) (by decide), ?_, by decide, by decide, by decide⟩
  intro a ha
  refine C118_no_conflict shipped graphBases (by decide) _ bases h a (shipped_unrelated _ fun c hc => ?_)
  have := small (pcAlg :: more ++ [a]) (by
    intro b hb c hc
    rcases List.mem_append.1 hb with hb | hb
    · exact hpc b hb c hc
    · rw [List.mem_singleton.1 hb] at hc; exact ha c hc) c hc
  revert this; cases c <;> decide

/-- before any factory call the graph class has no `directed_paths`; the call installs it -/
example : lookup shipped graphBases "directed_paths" = .error .attributeError ∧
    Call shipped pcAlg graphBases (.ok [.extension, .base, .directed, .baseModel, .edgeType]) ∧
    lookup shipped [.extension, .base, .directed, .baseModel, .edgeType] "directed_paths" = .ok .directed :=
  ⟨by decide, .done _ [.extension, .base, .directed, .baseModel, .edgeType, .abc, .obj] (by decide) (by decide), by decide⟩

/-! ## C119 -/

/-- **C119, what holds.** If only one class among the original base classes, the mixins of the successful calls and their
ancestors defines a method, then after any history every graph uses this implementation. -/
theorem C119_implementation_partial (w : World γ) (hw : ∀ c, (w.order c).Nodup ∧ c ∈ w.order c) (start : List γ)
    (hs : start.Nodup) (hl : Compatible (start.map w.order ++ [start])) (hist : List (Alg γ)) (bases : List γ)
    (h : After w start hist bases) (name : String) (p : γ)
    (hp : ∃ c, (c ∈ start ∨ Declared w hist c) ∧ p ∈ w.order c) (hdef : w.defines p name = true)
    (hone : ∀ c d, (c ∈ start ∨ Declared w hist c) → d ∈ w.order c → w.defines d name = true → d = p) :
    lookup w bases name = .ok p := by
  obtain ⟨h1, h2, h3⟩ := after_spec hs ((linearise_iff w start hs (fun c => (hw c).1)).2 hl) h
  obtain ⟨k1, _, k3⟩ := lookup_iff h1 (fun c => (hw c).1) (fun c => (hw c).2) h2 name
  obtain ⟨c, hc, hpc⟩ := hp
  obtain ⟨d, hd⟩ := k1.2 ⟨c, (h3 c).2 hc, p, hpc, hdef⟩
  obtain ⟨d1, b, hb, d2⟩ := k3 d hd
  rw [hd, hone b d ((h3 b).1 hb) d2 d1]

/-- three classes of a user: two unrelated mixins that both define `score` (1, 2) and one that inherits from the first (3) -/
def userWorld : World Nat :=
  ⟨fun c => if c = 3 then [3, 1] else [c], fun c n => n == "score" && (c == 1 || c == 2 || c == 3), fun _ => false⟩

/-- **C119, the full claim is false (other algorithms, order of the set).** Two algorithms each declare an edge type with a
method `score`.  After both have been created, the graphs of the first one use the implementation of the second one, or do not,
depending on the order of the set. -/
theorem C119_other_algorithm_decides : ∃ (a b : Alg Nat) (l1 l2 : List Nat),
    After userWorld [0] [a, b] l1 ∧ After userWorld [0] [a, b] l2 ∧ (∀ l, After userWorld [0] [a] l →
      lookup userWorld l "score" = .ok 1) ∧
    lookup userWorld l1 "score" = .ok 1 ∧ lookup userWorld l2 "score" = .ok 2 := by
  have ha : After userWorld [0] [⟨[1], none⟩] [0, 1] :=
    After.done (hist := []) .nil (.done _ [0, 1] (by decide) (by decide))
  refine ⟨⟨[1], none⟩, ⟨[2], none⟩, [0, 1, 2], [0, 2, 1], ?_, ?_, ?_, by decide, by decide⟩
  · exact After.done (hist := [⟨[1], none⟩]) ha (.done _ [0, 1, 2] (by decide) (by decide))
  · exact After.done (hist := [⟨[1], none⟩]) ha (.done _ [0, 2, 1] (by decide) (by decide))
  · intro l hl
    refine C119_implementation_partial userWorld ?_ [0] (by decide) ⟨[0], by decide, by decide⟩ _ l hl "score" 1 ?_ (by decide)
      ?_
    · intro c
      unfold userWorld
      dsimp only
      split <;> rename_i h <;> simp [h]
    · exact ⟨1, .inr ⟨_, List.mem_singleton.2 rfl, rfl, .inl (by decide)⟩, by decide⟩
    · rintro c d (hc | ⟨a, ha, _, hc⟩)
      · rw [List.mem_singleton.1 hc]
        intro hd _
        rw [show d = 0 from by simpa [userWorld] using hd] at *
        simp [userWorld] at *
      · rw [List.mem_singleton.1 ha] at hc
        rcases hc with hc | ⟨es, he, _⟩
        · rw [List.mem_singleton.1 hc]
          intro hd _
          simpa [userWorld] using hd
        · cases he

/-- **C119, the full claim is false (inheritance).** If the mixin of one edge type inherits from the mixin of another one,
creating the algorithm raises `TypeError` or succeeds, depending on the order of the set. -/
theorem C119_inheritance_may_fail : ∃ (a : Alg Nat) (new : List Nat), Call userWorld a [0] (.error .typeError) ∧
    Call userWorld a [0] (.ok new) ∧ lookup userWorld new "score" = .ok 3 :=
  ⟨⟨[1, 3], none⟩, [0, 3, 1], .conflict [0, 1, 3] (by decide) (by decide), .done _ [0, 3, 1] (by decide) (by decide),
    by decide⟩

/-- **C119, the full claim is false (undeclared edge types).** A graph of an algorithm without edge types has the methods of
directed edges as soon as PC exists in the process, and otherwise raises `AttributeError`. -/
theorem C119_methods_leak : ∃ (a : Alg Cls) (l1 l2 : List Cls), a.edgeTypes = [] ∧ After shipped graphBases [a] l1 ∧
    After shipped graphBases [pcAlg, a] l2 ∧ lookup shipped l1 "only_directed_edge_exists" = .error .attributeError ∧
    lookup shipped l2 "only_directed_edge_exists" = .ok .directed := by
  refine ⟨⟨[], none⟩, [.baseModel, .base], [.baseModel, .base, .directed, .edgeType, .extension], rfl, ?_, ?_, by decide,
    by decide⟩
  · exact After.done (hist := []) .nil (.done _ [.baseModel, .base, .obj] (by decide) (by decide))
  · refine After.done (hist := [pcAlg]) (After.done (hist := []) (new := [.baseModel, .base, .directed, .edgeType, .extension])
      .nil (.done _ [.baseModel, .base, .directed, .edgeType, .extension, .abc, .obj] (by decide) (by decide)))
      (.done _ [.baseModel, .base, .directed, .edgeType, .extension, .abc, .obj] (by decide) (by decide))

/-- the unique implementation of `score` if only the first mixin is in use -/
example : lookup userWorld [1, 0] "score" = .ok 1 := by decide

end Verif
