import Verif.Fci.Lemmas
import Verif.Fci.Marks
import Verif.Paths.Props
import Verif.PC.Props

/-!
# The FCI parts: C107, C108, C109
-/

namespace Verif
open Graph CI Orient PC Fci
variable {ι ρ : Type} [DecidableEq ι]

/-! ## C107 -/

/-- **C107.** On a graph without soft-deleted edges whose removals carry data, the rule never raises.  It applies everything it
proposes, keeps nodes, connections and edge types, and leaves every edge as it is except those whose end is an arrowhead: their
metadata become `{"edge_type": None}`.  The order in which neighbours are visited (`o`) does not matter. -/
theorem C107_marks_exactly (g : CGraph ι ρ) (hg : Reachable g) (hrows : Rows g) (hp : Purged g) (hd : RemovalsHaveData g)
    (o : Ord ι ρ) (ho : o.Valid) : ∃ L g', (fciStep o).execute false g = (.ok (L, L), g') ∧
      (fciStep o).execute true g = (.ok (L, L), g) ∧ g'.nodes = g.nodes ∧
      (∀ a b, g'.directedEdgeExists a b = g.directedEdgeExists a b) ∧
      (∀ a b e, ArrowheadAt g a b → g.getEdge a b = .ok e →
        g'.getEdge a b = .ok { e with metadata := { mark := true } }) ∧
      ∀ a b, ¬ ArrowheadAt g a b → g'.getEdge a b = g.getEdge a b := by
  obtain ⟨L, g', h1, h2, h3, h4, h5⟩ := fci_execute hg.wf hrows hp hd ho
  obtain ⟨g'', e1, e2, e3, -, e5, e6, -⟩ := marks_apply L hg.wf h4
  rw [h2] at e1
  obtain rfl : g' = g'' := (Prod.mk.inj e1).2
  refine ⟨L, g', h1, h3, e3, fun a b => ?_, fun a b e ha he => ?_, fun a b ha => ?_⟩
  · rw [directedEdgeExists_eq e2, directedEdgeExists_eq hg.wf, e5]
  · rw [getEdge_eq] at he ⊢
    rw [e6]
    cases hx : g.edges.get2 a b with
    | none => rw [hx] at he; cases he
    | some e' =>
      rw [hx] at he
      cases he
      simp only [Option.map_some, if_pos ((h5 a b).2 ha)]
      rfl
  · rw [getEdge_eq, getEdge_eq, e6]
    cases g.edges.get2 a b with
    | none => rfl
    | some e' => simp only [Option.map_some, if_neg (fun h => ha ((h5 a b).1 h))]

/-- the marks in the star of four nodes and in the path `0 – 2 – 1 – 3` with two colliders, where the edge between the two
colliders is marked at both ends -/
example : let marks := fun g : CGraph Nat Int => (g.nodes ×ˢ g.nodes).filter (fun p =>
      match g.getEdge p.1 p.2 with | .ok e => e.metadata.mark | .error _ => false)
    marks ((fciStep exSetOrd).execute false exCollStar).2 = [(0, 2), (1, 2), (3, 2)] ∧
    marks ((fciStep exSetOrd).execute false exConflict).2 = [(0, 2), (1, 2), (2, 1), (3, 1)] ∧
    marks exCollStar = [] := by
  refine ⟨?_, ?_, ?_⟩ <;> decide +kernel

/-- both meet the hypotheses -/
example : (Reachable exCollStar ∧ Purged exCollStar ∧ Rows exCollStar ∧ RemovalsHaveData exCollStar) ∧
    (Reachable exConflict ∧ Purged exConflict ∧ Rows exConflict ∧ RemovalsHaveData exConflict) ∧ exSetOrd.Valid :=
  ⟨⟨exCollStar_reachable, purged_of_entries (by decide +kernel), by unfold Rows; decide +kernel,
    removals_of_entries (by decide +kernel)⟩, ⟨⟨_, rfl⟩, purged_of_entries (by decide +kernel), by unfold Rows; decide +kernel,
    removals_of_entries (by decide +kernel)⟩, exSetOrd_valid⟩

/-- **C107, what is lost.** The mark replaces the metadata as a whole: a correlation stored in a marked edge is gone, while the
opposite edge of the same pair keeps it. -/
theorem C107_correlation_lost : ∃ g : CGraph Nat Int, Reachable g ∧ Purged g ∧ Rows g ∧ RemovalsHaveData g ∧
    let g' := ((fciStep exSetOrd).execute false g).2
    (g.getEdge 0 2).map (fun e => e.metadata.corr) = .ok (some 5) ∧
    (g'.getEdge 0 2).map (fun e => e.metadata.corr) = .ok none ∧
    (g'.getEdge 2 0).map (fun e => e.metadata.corr) = .ok (some 5) :=
  ⟨Cmd.runAll [.addNode 0, .addNode 1, .addNode 2, .addEdge 0 2 { corr := some 5 } .undirected,
    .addEdge 1 2 {} .undirected, .addEdgeHistory 0 1 (removal 0 1 [])] Graph.empty,
    ⟨_, rfl⟩, purged_of_entries (by decide +kernel), by unfold Rows; decide +kernel, removals_of_entries (by decide +kernel),
    by decide +kernel⟩

/-- **C107, one-way edges.** Two nodes connected by a one-way edge count as not adjacent, so that a triangle with such an edge
gets marks although none of its triples is unshielded. -/
theorem C107_triangle_marked : ∃ g : CGraph Nat Int, Reachable g ∧ Purged g ∧ Rows g ∧ RemovalsHaveData g ∧
    (∀ a ∈ g.nodes, ∀ b ∈ g.nodes, a ≠ b → g.edgeExists a b = true) ∧
    let g' := ((fciStep exSetOrd).execute false g).2
    (g'.getEdge 0 2).map (fun e => e.metadata.mark) = .ok true ∧
    (g'.getEdge 1 2).map (fun e => e.metadata.mark) = .ok true :=
  ⟨Cmd.runAll [.addNode 0, .addNode 1, .addNode 2, .addEdge 0 2 {} .undirected,
    .addEdge 1 2 {} .undirected, .addDirectedEdge 0 1 {} .directed] Graph.empty,
    ⟨_, rfl⟩, purged_of_entries (by decide +kernel), by unfold Rows; decide +kernel, removals_of_entries (by decide +kernel),
    by decide +kernel, by decide +kernel⟩

/-! ## C108 -/

/-- the tests of `PC` or `PCClassic` followed by the FCI collider rule -/
def fciPipeline (sk : List (PStep ι (Info ι ρ))) (o : Ord ι ρ) : List (PStep ι (Info ι ρ)) := sk ++ [.plain (fciStep o)]

/-- **C108.** With a perfect oracle for a DAG, from nodes without removal history: the tests of `PC` or `PCClassic` followed by
the FCI collider rule run without exception.  The result has exactly the adjacencies of the DAG, all as undirected edges.  An
edge from `a` to `b` has the mark, and lost its correlation, exactly if the DAG has an unshielded collider `a → b ← c`; all
other edges still have their correlation and no mark. -/
theorem C108_arrowheads_of_dag (T : Tests ι ρ) (E : ι → ι → Prop) (gn : CGraph ι ρ) (hgn : Reachable gn)
    (hfresh : ∀ a b, gn.retrieveEdgeHistory a b .removeEdgeUndirected = [])
    (hO : Oracle T E gn.nodes) (ord : NbOrd ι) (ho : ord.Valid) (o : Ord ι ρ) (ho' : o.Valid)
    (sk : List (PStep ι (Info ι ρ))) (hsk : sk = pcSkeleton T ord ∨ sk = classicSkeleton T ord) (fuel : Nat)
    (h : List (HistRec ι (Info ι ρ))) :
    let g := graphAfter fuel (fciPipeline sk o) ⟨startGraph gn, h⟩
    (runPipeline fuel (fciPipeline sk o) ⟨startGraph gn, h⟩).1 = .ok () ∧
    (∀ a b, g.undirectedEdgeExists a b = true ↔ Dag.Adj E a b) ∧
    (∀ a b, g.edgeExists a b = true ↔ Dag.Adj E a b) ∧
    ∀ a b e, g.getEdge a b = .ok e →
      ((∃ c, Dag.VStructure E a b c) → e.metadata = { mark := true }) ∧
      ((¬ ∃ c, Dag.VStructure E a b c) → e.metadata.corr = some (T.pearson a b) ∧ e.metadata.mark = false) := by
  obtain ⟨g, h', h1, h2, h3, h4⟩ := skeleton_run hgn hO ho hsk fuel h
  have hr := ready hgn hfresh hO h2 h3 h4
  have hpur : Purged g := by
    obtain ⟨g1, rfl⟩ := h3
    intro a b e he
    rw [getEdge_eq, get2_purgeG] at he
    cases hx : g1.edges.get2 a b with
    | none => rw [hx] at he; cases he
    | some e' =>
      rw [hx] at he
      cases hd : e'.deleted with
      | false => simp only [hd, Bool.false_eq_true, if_false] at he; cases he; exact hd
      | true => simp only [hd, if_true] at he; cases he
  have hcorr : HasCorr g := by
    have := skeleton_hasCorr hgn hO ho hsk fuel h
    unfold graphAfter at this
    rwa [h1] at this
  have hmark : NoMark g := by
    have hci : CIPipeline T sk := by
      rcases hsk with rfl | rfl <;> intro p hp s hs <;>
        simp only [pcSkeleton, classicSkeleton, List.mem_cons, List.not_mem_nil, or_false] at hp
      · rcases hp with rfl | rfl | rfl | rfl <;> simp only [PStep.steps, List.mem_singleton] at hs <;> subst hs
        · exact ⟨.pearson, trivial, rfl⟩
        · exact ⟨.correlation, trivial, rfl⟩
        · exact ⟨.partialCorrelation, trivial, rfl⟩
        · exact ⟨.matrix _, neighbours_valid ho, rfl⟩
      · rcases hp with rfl | rfl | rfl <;> simp only [PStep.steps, List.mem_singleton] at hs <;> subst hs
        · exact ⟨.pearson, trivial, rfl⟩
        · exact ⟨.correlation, trivial, rfl⟩
        · exact ⟨.matrix _, neighbours_valid ho, rfl⟩
    have := pipeline_noMark T hO.sym hgn fuel sk hci h
    unfold graphAfter at this
    rwa [h1] at this
  obtain ⟨L, g', e1, e2, -, e4, e5⟩ := fci_execute hr.wf hr.rows hpur hr.data ho'
  obtain ⟨g'', f1, f2, f3, -, f5, f6, -⟩ := marks_apply L hr.wf e4
  rw [e2] at f1
  obtain rfl : g' = g'' := (Prod.mk.inj f1).2
  obtain ⟨h'', hrun⟩ : ∃ h'', runPipeline fuel (fciPipeline sk o) ⟨startGraph gn, h⟩ = (.ok (), ⟨purgeG g', h''⟩) := by
    unfold runPipeline fciPipeline at *
    rw [PyM.forEach_append_ok h1, PyM.forEach_cons_ok (run_plain_ok fuel (m := ⟨g, h'⟩) e1 f2)]
    exact ⟨_, rfl⟩
  intro g2
  have hg2 : g2 = purgeG g' := by
    show (runPipeline fuel (fciPipeline sk o) ⟨startGraph gn, h⟩).2.graph = _
    rw [hrun]
  have hlive : ∀ a b, g2.directedEdgeExists a b = true ↔ Dag.Adj E a b := by
    intro a b
    rw [hg2, directedEdgeExists_eq f2.purgeG, live_purgeG, f5, hr.adj]
  have hvs : ∀ a b, ArrowheadAt g a b ↔ ∃ c, Dag.VStructure E a b c := by
    intro a b
    have hn : g.nodes = gn.nodes := by
      rw [h2.1.nodes]; exact (start_facts gn hgn T).2.1
    have hk : ∀ x, g.directedEdgeExists x b = true → b ∈ g.edges.keys2 x := fun x hx =>
      mem_keys2_live (by rwa [directedEdgeExists_eq hr.wf] at hx)
    have hln : ∀ x y, g.Line x y ↔ Dag.Adj E x y := fun x y => by
      rw [line_iff hr.wf, hr.adj, hr.adj]
      exact ⟨fun h => h.1, fun h => ⟨h, h.symm⟩⟩
    have hdir : ∀ x, E x b → g.directedEdgeExists x b = true := fun x hx => by
      rw [directedEdgeExists_eq hr.wf, hr.adj]; exact Or.inl hx
    constructor
    · rintro ⟨c, k1, k2, k3, ⟨k4, k5⟩ | ⟨k4, k5⟩⟩
      · obtain ⟨m1, m2, m3⟩ := pair_of_sublist hr.wf.nodup k4
        rw [hr.collider m1 m2 m3 k1 (hk _ k2) (hk _ k3), not_not] at k5
        exact ⟨c, k5, m3, fun h => k1 ((hln _ _).2 h)⟩
      · obtain ⟨m1, m2, m3⟩ := pair_of_sublist hr.wf.nodup k4
        have k1' : ¬ g.Line c a := fun h => k1 ⟨h.2, h.1⟩
        rw [hr.collider m1 m2 m3 k1' (hk _ k3) (hk _ k2), not_not] at k5
        exact ⟨c, ⟨k5.2, k5.1⟩, m3.symm, fun h => k1 ((hln _ _).2 h)⟩
    · rintro ⟨c, k1, k2, k3⟩
      have ha : a ∈ g.nodes := hn ▸ (hO.edges _ _ k1.1).1
      have hc : c ∈ g.nodes := hn ▸ (hO.edges _ _ k1.2).1
      have l1 : ¬ g.Line a c := fun h => k3 ((hln _ _).1 h)
      have l2 : ¬ g.Line c a := fun h => k3 ((hln _ _).1 ⟨h.2, h.1⟩)
      refine ⟨c, l1, hdir _ k1.1, hdir _ k1.2, ?_⟩
      rcases pair_sublist hr.wf.nodup ha hc k2 with hs | hs
      · refine Or.inl ⟨hs, ?_⟩
        rw [hr.collider ha hc k2 l1 (hk _ (hdir _ k1.1)) (hk _ (hdir _ k1.2)), not_not]
        exact k1
      · refine Or.inr ⟨hs, ?_⟩
        rw [hr.collider hc ha k2.symm l2 (hk _ (hdir _ k1.2)) (hk _ (hdir _ k1.1)), not_not]
        exact ⟨k1.2, k1.1⟩
  refine ⟨by rw [hrun], fun a b => ?_, fun a b => ?_, fun a b e he => ?_⟩
  · rw [und_iff]
    unfold Line
    rw [hlive, hlive]
    exact ⟨fun h => h.1, fun h => ⟨h, h.symm⟩⟩
  · rw [edge_iff (by rw [hg2]; exact f2.purgeG)]
    unfold Adj
    rw [hlive, hlive]
    exact ⟨fun h => h.elim id Dag.Adj.symm, Or.inl⟩
  · rw [hg2, getEdge_eq, get2_purgeG, f6] at he
    cases hx : g.edges.get2 a b with
    | none => rw [hx] at he; cases he
    | some e0 =>
      have hdel : e0.deleted = false := hpur a b e0 (by rw [getEdge_eq, hx]; rfl)
      rw [hx] at he
      constructor
      · intro hv
        rw [← hvs, ← e5] at hv
        simp only [Option.map_some, if_pos hv, hdel, Bool.false_eq_true, if_false] at he
        cases he
        rfl
      · intro hv
        rw [← hvs, ← e5] at hv
        simp only [Option.map_some, if_neg hv, hdel, Bool.false_eq_true, if_false] at he
        cases he
        exact ⟨(h2.1.corr a b _ hx).resolve_left (hcorr a b _ hx), hmark a b _ hx⟩

/-- the example of C45 and C46: the marks are at `0 → 2` and `1 → 2` -/
example : let g := graphAfter 0 (fciPipeline (pcSkeleton exOracle exNbOrd) exSetOrd) ⟨startGraph exPcNodes, []⟩
    (g.nodes ×ˢ g.nodes).filter (fun p => match g.getEdge p.1 p.2 with | .ok e => e.metadata.mark | .error _ => false) =
      [(0, 2), (1, 2)] := by
  decide +kernel

/-- the hypotheses -/
example : Reachable exPcNodes ∧ (∀ a b, exPcNodes.retrieveEdgeHistory a b .removeEdgeUndirected = []) ∧
    Oracle exOracle exDag exPcNodes.nodes ∧ exNbOrd.Valid ∧ exSetOrd.Valid ∧ Dag.VStructure exDag 0 2 1 := by
  refine ⟨nodesOnly_reachable _, fun a b => nodesOnly_history _ (by decide) a b _, exOracle_oracle, exNbOrd_valid,
    exSetOrd_valid, ?_⟩
  unfold Dag.VStructure Dag.Collider Dag.Adj; decide

/-! ## C109 -/

/-- **C109, never True.** Whatever the graph, `inducing_path_exists` never answers True. -/
theorem C109_never_true {δ : Type} (g : Graph ι δ) (fuel : Nat) (u v : ι) : inducingPathExists g fuel u v ≠ .ok true := by
  have hloop : ∀ ps : List (List (ι × ι)), inducingLoop ps ≠ .ok true := by
    intro ps
    induction ps with
    | nil => simp [inducingLoop]
    | cons p ps ih =>
      unfold inducingLoop
      split
      · simp
      · exact ih
  unfold inducingPathExists
  split
  · simp
  · simp
  · split
    · simp
    · exact hloop _

/-- **C109, exact behaviour.** On graphs without directed cycles and without soft-deleted edges: the call raises
`AttributeError` if there is a directed path with three or more edges none of whose nodes before the last two has a direct edge
to `v`; otherwise it answers False. -/
theorem C109_raises_iff {δ : Type} (g : Graph ι δ) (hg : Reachable g) (hp : Purged g) (hac : Dag.Acyclic (Live g)) (u v : ι)
    (hu : g.edges.has u = true) (fuel : Nat) (hf : g.nodes.length < fuel) :
    ((∃ p, IsDirPath g v u p ∧ (∀ e ∈ p.dropLast, ¬ Live g e.1 v) ∧ 3 ≤ p.length) →
      inducingPathExists g fuel u v = .error .attributeError) ∧
    ((¬ ∃ p, IsDirPath g v u p ∧ (∀ e ∈ p.dropLast, ¬ Live g e.1 v) ∧ 3 ≤ p.length) →
      inducingPathExists g fuel u v = .ok false) := by
  obtain ⟨b, h1, h2⟩ := C19_directed_path_exists_partial g hg hp hac u v hu fuel hf
  obtain ⟨ps, h3, h4⟩ := C20_directed_paths_exact_partial g hg hac u v hu fuel hf
  have hloop : ∀ ps : List (List (ι × ι)), ((∃ p ∈ ps, 3 ≤ p.length) → inducingLoop ps = .error .attributeError) ∧
      ((¬ ∃ p ∈ ps, 3 ≤ p.length) → inducingLoop ps = .ok false) := by
    intro ps
    induction ps with
    | nil => simp [inducingLoop]
    | cons p ps ih =>
      unfold inducingLoop
      by_cases hl : 1 < p.length - 1
      · rw [if_pos hl]
        exact ⟨fun _ => rfl, fun h => absurd ⟨p, List.mem_cons_self, by omega⟩ h⟩
      · rw [if_neg hl]
        refine ⟨?_, fun h => ih.2 (fun ⟨q, hq, h3⟩ => h ⟨q, List.mem_cons_of_mem _ hq, h3⟩)⟩
        rintro ⟨q, hq, h3⟩
        rcases List.mem_cons.1 hq with rfl | hq
        · omega
        · exact ih.1 ⟨q, hq, h3⟩
  have hiff : (∃ p, IsDirPath g v u p ∧ (∀ e ∈ p.dropLast, ¬ Live g e.1 v) ∧ 3 ≤ p.length) ↔ ∃ p ∈ ps, 3 ≤ p.length := by
    constructor
    · rintro ⟨p, k1, k2, k3⟩; exact ⟨p, (h4 p).2 ⟨k1, k2⟩, k3⟩
    · rintro ⟨p, k1, k2⟩; exact ⟨p, ((h4 p).1 k1).1, ((h4 p).1 k1).2, k2⟩
  rw [hiff]
  unfold inducingPathExists
  rw [h1, h3]
  cases b with
  | true => exact hloop ps
  | false =>
    refine ⟨?_, fun _ => rfl⟩
    rintro ⟨p, k1, k2⟩
    exact absurd (h2.2 (dirPath_trans ((h4 p).1 k1).1)) (by simp)

/-- **C109.** On graphs without directed cycles, whenever the call answers for two nodes without a direct edge, the answer says
whether there is an inducing path.  Missing for the full claim: for two nodes with a direct edge, which always is an inducing
path, the answer is False as well (`C109_direct_edge_denied`), and longer connections make the call raise
(`C109_raises_iff`). -/
theorem C109_inducing_partial {δ : Type} (g : Graph ι δ) (hac : Dag.Acyclic (Live g)) (u v : ι) (hno : ¬ Live g u v)
    (fuel : Nat) (b : Bool) (h : inducingPathExists g fuel u v = .ok b) : b = true ↔ ∃ p, InducingPath g u v p := by
  rw [inducing_iff g hac]
  refine ⟨?_, fun h => absurd h hno⟩
  rintro rfl
  exact absurd h (C109_never_true g fuel u v)

/-- **C109, negation.** A direct edge is an inducing path, but the answer is False. -/
theorem C109_direct_edge_denied {δ : Type} (g : Graph ι δ) (u v : ι) (h : Live g u v) (fuel : Nat) :
    InducingPath g u v [(u, v)] ∧ inducingPathExists g (fuel + 1) u v = .ok false := by
  have hd : g.directedEdgeExists u v = true := h
  refine ⟨⟨⟨rfl, h⟩, ?_⟩, ?_⟩
  · intro e e' hi
    have := hi.length_le
    simp at this
  · unfold inducingPathExists directedPathExists directedPaths
    simp [hd, inducingLoop]

/-- the chain `0 → 1 → 2 → 3`: no answer for 0 and 3, False for 0 and 2 and for 0 and 1 -/
example : let g : Graph Nat Nat := Cmd.runAll [.addNode 0, .addNode 1, .addNode 2, .addNode 3, .addDirectedEdge 0 1 0 .directed,
      .addDirectedEdge 1 2 0 .directed, .addDirectedEdge 2 3 0 .directed] Graph.empty
    inducingPathExists g 5 0 3 = .error .attributeError ∧ inducingPathExists g 5 0 2 = .ok false ∧
    inducingPathExists g 5 0 1 = .ok false ∧ g.directedEdgeExists 0 1 = true := by
  decide +kernel

end Verif
