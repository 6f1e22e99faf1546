import Verif.Heap.Lemmas6
import Verif.Heap.Steps
import Verif.CI.Props

/-!
# C116 and C117: runs in which dictionaries are shared

`Heap.run` runs a pipeline on a graph whose edges, records and history entries refer to dictionary objects;
`runPipeline` is the model of the other properties, in which metadata are values.
-/

namespace Verif
open Graph CI Orient PC Effects
variable {ι ρ δ τ : Type} [DecidableEq ι]

open Heap

/-! ## C117 -/

/-- C117: the outcome of a run is the same whether or not dictionaries are shared.  The same exceptions arise, and without one
nodes and edges with their types and metadata agree, as do all records up to the overwritten keys of metadata updates. -/
theorem C117_sharing_is_invisible (κ : δ → τ) (nodes : List ι) (hn : nodes.Nodup) (m0 : δ) (c : Ref → δ) (fuel : Nat)
    (ps : List (HPStep ι δ)) (ha : ∀ p ∈ ps, Heap.Admissible κ p) :
    let M := run fuel ps (before nodes m0 c)
    let V := runPipeline fuel (ps.map HPStep.forget) ⟨(Graph.createAllPossibleEdges m0 (nodesOnly nodes)).2, []⟩
    M.1 = V.1 ∧ (M.1 = .ok () → Agree κ M.2 V.2) := by
  intro M V
  obtain ⟨P, hP⟩ := before_rel (κ := κ) hn m0 c
  rcases run_rel fuel ps ha hP with ⟨e, h1, h2⟩ | ⟨P', H', h1, h2, h3⟩
  · exact ⟨h1.trans h2.symm, fun h => by rw [show M.1 = .error e from h1] at h; cases h⟩
  · exact ⟨h1.trans h2.symm, fun _ => h3.agree⟩

/-- C117 for the shipped algorithms run without worker pool: `PC`, `PCClassic`, `PCStable`, and other sequences of their tests and
rules between the first and the last step.  The order in which sets are iterated must not depend on edge metadata. -/
theorem C117_algorithms (nodes : List ι) (hn : nodes.Nodup) (c : Ref → Info ι ρ) (fuel : Nat) (T : Tests ι ρ) (D : Source ι ρ)
    (ps : List (PStep ι (Info ι ρ))) (hps : ∀ p ∈ ps, Middle p) :
    let M := run fuel (shared T ps D) (before nodes {} c)
    let V := runPipeline fuel ([.plain (pearsonStep T)] ++ ps ++ [.plain (effectStep D)]) ⟨startGraph (nodesOnly nodes), []⟩
    M.1 = V.1 ∧ (M.1 = .ok () → M.2.state.deref.nodes = V.2.graph.nodes ∧
      ∀ u v, M.2.state.deref.edges.get2 u v = V.2.graph.edges.get2 u v) := by
  have := C117_sharing_is_invisible (neither : Info ι ρ → _) nodes hn {} c fuel (shared T ps D) (shared_admissible T hps D)
  rw [forget_shared] at this
  exact ⟨this.1, fun h => ⟨(this.2 h).nodes, (this.2 h).edges⟩⟩

/-- the three sequential algorithms have this form -/
theorem C117_covers (T : Tests ι ρ) (ord : NbOrd ι) (oc : Ord ι ρ) (o : Ords ι ρ) (hc : OrdOk oc) (h1 : OrdOk o.r1) (h3 : OrdOk o.r3)
    (h4 : OrdOk o.r4) : ∀ alg ∈ [pc T ord oc o, pcClassic T ord oc o, pcStable T ord oc o],
      ∃ ps : List (PStep ι (Info ι ρ)), (∀ p ∈ ps, Middle p) ∧ alg = [.plain (pearsonStep T)] ++ ps := by
  intro alg halg
  simp only [List.mem_cons, List.not_mem_nil, or_false] at halg
  rcases halg with rfl | rfl | rfl
  · refine ⟨[.plain (corrStep T), .plain (partialStep T), .plain (matrixStep T (neighbours 4 ord)), .plain (colliderStep .keepFirst oc), ruleLoop o], ?_, rfl⟩
    intro p hp
    simp only [List.mem_cons, List.not_mem_nil, or_false] at hp
    rcases hp with rfl | rfl | rfl | rfl | rfl
    exacts [.corr T, .triples T, .matrix T _, .collider oc hc, .rules o h1 h3 h4]
  · refine ⟨[.plain (corrStep T), .plain (matrixStep T (neighbours 3 ord)), .plain (colliderStep .keepFirst oc), ruleLoop o], ?_, rfl⟩
    intro p hp
    simp only [List.mem_cons, List.not_mem_nil, or_false] at hp
    rcases hp with rfl | rfl | rfl | rfl
    exacts [.corr T, .matrix T _, .collider oc hc, .rules o h1 h3 h4]
  · refine ⟨[stableTests T ord, .plain (colliderStep .keepFirst oc), ruleLoop o], ?_, rfl⟩
    intro p hp
    simp only [List.mem_cons, List.not_mem_nil, or_false] at hp
    rcases hp with rfl | rfl | rfl
    exacts [.together _ T _, .collider oc hc, .rules o h1 h3 h4]

/-! ## C116 -/

/-- C116, the part that holds: between two points of a run the history entries and the recorded actions of every pair keep their
order, nodes, actions and data; of the data of metadata updates only the keys which `κ` forgets may change.  Missing: the overwritten
keys of metadata updates (see `C116_entries_change`). -/
theorem C116_entries_stay_partial (κ : δ → τ) (nodes : List ι) (hn : nodes.Nodup) (m0 : δ) (c : Ref → δ) (fuel : Nat)
    (ps qs : List (HPStep ι δ)) (hp : ∀ p ∈ ps, Heap.Admissible κ p) (hq : ∀ p ∈ qs, Heap.Admissible κ p) (M1 M2 : HModel ι δ)
    (h1 : run fuel ps (before nodes m0 c) = (.ok (), M1)) (h2 : run fuel qs M1 = (.ok (), M2)) :
    M1.entries.map (blurRec κ) <+: M2.entries.map (blurRec κ) ∧
    ∀ u v l, M1.state.deref.retrieveEdgeHistoryAll u v = .ok l →
      ∃ l', M2.state.deref.retrieveEdgeHistoryAll u v = .ok l' ∧ l.map (blur κ) <+: l'.map (blur κ) := by
  obtain ⟨P, hP⟩ := before_rel (κ := κ) hn m0 c
  have hr1 := run_rel fuel ps hp hP
  rw [h1] at hr1
  rcases hr1 with ⟨e, h, _⟩ | ⟨P1, H1, _, _, hR1⟩
  · cases h
  generalize (runPipeline fuel (ps.map HPStep.forget) ⟨(Graph.createAllPossibleEdges m0 (nodesOnly nodes)).2, []⟩).2 = V1 at hR1
  simp only at hR1
  have hr2 := run_rel fuel qs hq hR1
  rw [h2] at hr2
  rcases hr2 with ⟨e, h, _⟩ | ⟨P2, H2, _, _, hR2⟩
  · cases h
  simp only at hR2
  have hw : WF0 V1.graph := by rw [hR1.graph]; exact wf_map _ hR1.pre.inv.wf
  obtain ⟨g1, g2⟩ := history_grows fuel (qs.map HPStep.forget) V1 hw
  generalize (runPipeline fuel (qs.map HPStep.forget) V1).2 = V2 at hR2 g1 g2
  have a1 := hR1.agree
  have a2 := hR2.agree
  constructor
  · rw [a1.history, a2.history]
    exact g1.map _
  · intro u v l hl
    unfold retrieveEdgeHistoryAll at hl ⊢
    have b1 := a1.records u v
    have b2 := a2.records u v
    cases hx : M1.state.deref.hist.get? (u, v) with
    | none => rw [hx] at hl; cases hl
    | some l0 =>
      rw [hx] at hl
      injection hl with hl
      subst hl
      rw [hx] at b1
      simp only [Option.map_some] at b1
      cases hv : V1.graph.hist.get? (u, v) with
      | none => rw [hv] at b1; cases b1
      | some lv =>
        rw [hv] at b1
        simp only [Option.map_some, Option.some.injEq] at b1
        obtain ⟨m, hm⟩ := g2 (u, v) lv hv
        rw [hm] at b2
        cases hy : M2.state.deref.hist.get? (u, v) with
        | none => rw [hy] at b2; cases b2
        | some l2 =>
          rw [hy] at b2
          simp only [Option.map_some, Option.some.injEq] at b2
          refine ⟨l2, rfl, ?_⟩
          rw [b1, b2, List.map_append]
          exact List.prefix_append _ _

/-- C116 holds in full for pipelines none of whose steps writes into stored dictionaries. -/
theorem C116_exact_without_writes (nodes : List ι) (hn : nodes.Nodup) (m0 : δ) (c : Ref → δ) (fuel : Nat)
    (ps qs : List (PStep ι δ)) (hp : ∀ p ∈ ps ++ qs, Heap.Admissible (id : δ → δ) (quiet p)) (M1 M2 : HModel ι δ)
    (h1 : run fuel (ps.map quiet) (before nodes m0 c) = (.ok (), M1)) (h2 : run fuel (qs.map quiet) M1 = (.ok (), M2)) :
    M1.entries <+: M2.entries ∧
    ∀ u v l, M1.state.deref.retrieveEdgeHistoryAll u v = .ok l →
      ∃ l', M2.state.deref.retrieveEdgeHistoryAll u v = .ok l' ∧ l <+: l' := by
  have hp1 : ∀ p ∈ ps.map quiet, Heap.Admissible (id : δ → δ) p := by
    intro p hm
    obtain ⟨q, hq, rfl⟩ := List.mem_map.1 hm
    exact hp q (List.mem_append_left _ hq)
  have hp2 : ∀ p ∈ qs.map quiet, Heap.Admissible (id : δ → δ) p := by
    intro p hm
    obtain ⟨q, hq, rfl⟩ := List.mem_map.1 hm
    exact hp q (List.mem_append_right _ hq)
  obtain ⟨g1, g2⟩ := C116_entries_stay_partial (id : δ → δ) nodes hn m0 c fuel _ _ hp1 hp2 M1 M2 h1 h2
  refine ⟨prefix_of_map blurRec_id_inj g1, fun u v l hl => ?_⟩
  obtain ⟨l', h3, h4⟩ := g2 u v l hl
  exact ⟨l', h3, prefix_of_map blur_id_inj h4⟩

/-! ### a run of `PC` on three variables, 0 and 1 independent, 2 a common effect -/

/-- the correlation of `x` and `y` is `10 x + y + 1`; 0 and 1 are found independent -/
def exShareTests : Tests Nat Nat where
  pearson x y := 10 * x + y + 1
  t0 x y _ := .ok (decide (x + y = 1))
  t1 _ _ _ _ _ _ _ := .ok (some false)
  tm _ := .ok (some false)
  reg _ := .ok false

/-- every direct effect is 7 -/
def exShareSource : Source Nat Nat := ⟨fun _ => some [1], fun cols _ => cols.map (fun _ => 7)⟩

/-- the steps of `PC` between the first and the last -/
def exShareMiddle : List (PStep Nat (Info Nat Nat)) :=
  [.plain (corrStep exShareTests), .plain (partialStep exShareTests), .plain (colliderStep .keepFirst (fun _ _ _ l => l.dedup)),
    ruleLoop ⟨fun _ _ _ l => l.dedup, fun _ _ _ l => l.dedup, fun _ _ _ l => l.dedup⟩]

theorem exShareMiddle_ok : ∀ p ∈ exShareMiddle, Middle p := by
  intro p hp
  simp only [exShareMiddle, List.mem_cons, List.not_mem_nil, or_false] at hp
  rcases hp with rfl | rfl | rfl | rfl
  exacts [.corr _, .triples _, .collider _ (fun _ _ _ _ _ => rfl), .rules _ (fun _ _ _ _ _ => rfl) (fun _ _ _ _ _ => rfl) (fun _ _ _ _ _ => rfl)]

/-- the model before the first step -/
def exShareBefore : HModel Nat (Info Nat Nat) := before [0, 1, 2] {} (fun _ => {})

/-- the model after the correlation step -/
def exShare1 : Except PyErr Unit × HModel Nat (Info Nat Nat) := run 9 [.plain ⟨pearsonStep exShareTests, true⟩] exShareBefore

/-- the model after the whole run -/
def exShare2 : Except PyErr Unit × HModel Nat (Info Nat Nat) := run 9 (shared exShareTests exShareMiddle exShareSource) exShareBefore

/-- C116 is false as stated: at the end of the run the first history entry, and the recorded update of the pair `(0, 2)`, contain
a direct effect that was not there when they were recorded. -/
theorem C116_entries_change : exShare1.1 = .ok () ∧ exShare2.1 = .ok () ∧ ¬ exShare1.2.entries <+: exShare2.2.entries ∧
    exShare1.2.state.deref.retrieveEdgeHistory 0 2 .updateEdge = [⟨0, 2, .updateEdge, some { corr := some 3 }⟩] ∧
    exShare2.2.state.deref.retrieveEdgeHistory 0 2 .updateEdge = [⟨0, 2, .updateEdge, some { corr := some 3, effect := some 7 }⟩] := by
  refine ⟨?_, ?_, ?_, ?_, ?_⟩ <;> decide +kernel

/-- the run meets the hypotheses of C117 and learns the collider with its effects -/
example : (∀ p ∈ exShareMiddle, Middle p) ∧ [0, 1, 2].Nodup ∧
    exShare2.2.state.deref.edgeValue 0 2 = .ok (some { corr := some 3, effect := some 7 }) ∧
    exShare2.2.state.deref.directedEdgeExists 2 0 = false ∧ exShare2.2.state.deref.edgeExists 0 1 = false :=
  ⟨exShareMiddle_ok, by decide, by decide +kernel, by decide +kernel, by decide +kernel⟩

/-- tests that find 0 and 1 independent given 2 -/
def exQuietTests : Tests Nat Nat := { exShareTests with tm := fun c => .ok (some (decide (c = [0, 1, 2]))) }

/-- a run without writes in place: the extended test, then the collider test -/
def exQuiet : List (PStep Nat (Info Nat Nat)) × List (PStep Nat (Info Nat Nat)) :=
  ([.plain (matrixStep exQuietTests (neighbours 3 (fun _ _ _ l => l.dedup)))], [.plain (colliderStep .keepFirst (fun _ _ _ l => l.dedup))])

/-- the hypotheses of `C116_exact_without_writes` and of `C116_entries_stay_partial` are met -/
example : (∀ p ∈ exQuiet.1 ++ exQuiet.2, Heap.Admissible (id : Info Nat Nat → _) (quiet p)) ∧
    (run 9 (exQuiet.1.map quiet) exShareBefore).1 = .ok () ∧
    (run 9 (exQuiet.2.map quiet) (run 9 (exQuiet.1.map quiet) exShareBefore).2).1 = .ok () ∧
    (run 9 (exQuiet.1.map quiet) exShareBefore).2.state.deref.retrieveEdgeHistoryAll 0 1
      = .ok [⟨0, 1, .removeEdgeUndirected, some { sep := some [2] }⟩] := by
  refine ⟨?_, by decide +kernel, by decide +kernel, by decide +kernel⟩
  intro p hp
  simp only [exQuiet, List.cons_append, List.nil_append, List.mem_cons, List.not_mem_nil, or_false] at hp
  rcases hp with rfl | rfl
  exacts [(Middle.matrix _ _).admissible, (Middle.collider _ (fun _ _ _ _ _ => rfl)).admissible]

end Verif
