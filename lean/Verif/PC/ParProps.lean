import Verif.PC.ParWitness
import Verif.Par.Props

/-!
# Properties C82 to C85: `ParallelPC` under every schedule

`Stages.Run fuel xs m out` holds if some schedule of the parallel steps among `xs` lets the pipeline end with `out`.
-/

namespace Verif
open Graph CI Orient PC
variable {ι ρ : Type} [DecidableEq ι]

/-- a list of independence-test steps, each run in the main process or in the pool, with any batch size; in the pool possibly
with a generator that drops combinations at random -/
def CIStages (T : Tests ι ρ) (xs : List (Stage ι (Info ι ρ))) : Prop :=
  ∀ x ∈ xs, (∃ p, x = .seq p ∧ CIPipeline T [p]) ∨
    (∃ (t : CITest ι) (size : Nat), t.Valid ∧ x = .par (t.step T) size) ∨
    (∃ (cfg : NbCfg ι) (keep : Nat → List (Yield ι) → List (Yield ι)) (size : Nat), cfg.Valid ∧
      (∀ i l, (keep i l).Sublist l) ∧ x = .par (sampledStep T cfg keep) size)

theorem sampled_safe (T : Tests ι ρ) (g0 : CGraph ι ρ) {cfg : NbCfg ι} (hv : cfg.Valid)
    {keep : Nat → List (Yield ι) → List (Yield ι)} (hk : ∀ i l, (keep i l).Sublist l) :
    (sampledStep T cfg keep).Safe (Inv T g0) (Proposal T g0.nodes) := by
  obtain ⟨R, hR⟩ := matrix_safe T g0 cfg hv
  refine ⟨R, ?_, hR.process⟩
  intro g1 ts h1 hts t ht g hg y hy c hc
  obtain ⟨ts', e1, e2⟩ := sampleGen_mem hk (show sampleGen keep (pairsWithNeighbours cfg) g1 = .ok ts from hts)
  obtain ⟨t', ht', h3⟩ := e2 t ht
  exact hR.gen g1 ts' h1 e1 t' ht' g hg y (h3 g y hy) c hc

/-- the invariant of the phase holds after every stage, whatever the schedule and the outcome -/
theorem stages_inv {T : Tests ι ρ} (hsym : ∀ a b, T.pearson a b = T.pearson b a) (g0 : CGraph ι ρ) {fuel : Nat}
    {xs : List (Stage ι (Info ι ρ))} (hxs : CIStages T xs) {m : GModel ι (Info ι ρ)} (hm : Inv T g0 m.graph)
    {out : Except PyErr Unit × GModel ι (Info ι ρ)} (h : Stages.Run fuel xs m out) : Inv T g0 out.2.graph := by
  have one : ∀ x ∈ xs, ∀ (m : GModel ι (Info ι ρ)) out, Inv T g0 m.graph → Stage.Run fuel x m out → Inv T g0 out.2.graph := by
    intro x hx m out hm h
    have par : ∀ {s : Step ι (Info ι ρ)} {size : Nat}, s.Safe (Inv T g0) (Proposal T g0.nodes) →
        Stage.Run fuel (.par s size) m out → Inv T g0 out.2.graph := by
      intro s size hs h
      cases h with
      | par _ _ _ t p g' hr =>
        have hi : Inv T g0 g' := Par.run_kept (inv_kept hsym g0) hs hm hr
        rw [PyM.bind_run]
        simp only [appendHistory, PyM.mod_run, onGraph_run]
        exact hi.purge
      | raised _ _ _ e g' hr => exact Par.run_kept (inv_kept hsym g0) hs hm hr
    rcases hxs x hx with ⟨p, rfl, hp⟩ | ⟨t, size, hv, rfl⟩ | ⟨cfg, keep, size, hv, hk, rfl⟩
    · cases h
      have := pipeline_inv T hsym g0 fuel [p] hp hm
      unfold runPipeline at this
      rw [PyM.forEach_cons, PyM.bind_run] at this
      generalize p.run fuel m = y at this ⊢
      obtain ⟨e | u, m'⟩ := y
      · exact this
      · exact this
    · exact par (test_safe T g0 t hv) h
    · exact par (sampled_safe T g0 hv hk) h
  induction h with
  | nil m => exact hm
  | cons x xs m m' out h hs ih =>
    exact ih (fun y hy => hxs y (List.mem_cons_of_mem _ hy)) (one x List.mem_cons_self m _ hm h)
      (fun y hy => one y (List.mem_cons_of_mem _ hy))
  | raised x xs m e m' h => exact one x List.mem_cons_self m _ hm h

/-- the skeleton phase of `ParallelPC` is such a list -/
theorem parallelSkeleton_ci (T : Tests ι ρ) (z : Sizes) {c : ParChoice ι} (hv : c.Valid) :
    CIStages T (parallelSkeleton T z c) := by
  intro x hx
  simp only [parallelSkeleton, List.mem_cons, List.not_mem_nil, or_false] at hx
  rcases hx with rfl | rfl | rfl | rfl | rfl
  · exact .inl ⟨_, rfl, fun p hp s hs => by
      rw [List.mem_singleton] at hp; subst hp
      simp only [PStep.steps, List.mem_singleton] at hs
      exact ⟨.pearson, trivial, hs⟩⟩
  · exact .inl ⟨_, rfl, fun p hp s hs => by
      rw [List.mem_singleton] at hp; subst hp
      simp only [PStep.steps, List.mem_singleton] at hs
      exact ⟨.correlation, trivial, hs⟩⟩
  · exact .inr (.inl ⟨.partialCorrelation, _, trivial, rfl⟩)
  · exact .inr (.inr ⟨_, _, _, shuffled_valid hv.ord1 hv.shuf1, hv.keep, rfl⟩)
  · exact .inr (.inl ⟨.matrix _, _, shuffled_valid hv.ord2 hv.shuf2, rfl⟩)

/-! ## C82 -/

/-- **C82.** Independence-test steps run in the pool, whatever the tests answer, the schedule and the outcome: nodes are kept,
the edge relation is symmetric and undirected, no adjacency appears, and the history of every adjacency that is gone holds a
removal with a set of other variables given which the test reported the two independent. -/
theorem C82_every_schedule_certified (T : Tests ι ρ) (hsym : ∀ a b, T.pearson a b = T.pearson b a)
    (gn : CGraph ι ρ) (hgn : Reachable gn) (fuel : Nat) (xs : List (Stage ι (Info ι ρ))) (hxs : CIStages T xs)
    (h : List (HistRec ι (Info ι ρ))) (out : Except PyErr Unit × GModel ι (Info ι ρ))
    (hrun : Stages.Run fuel xs ⟨startGraph gn, h⟩ out) :
    let g := out.2.graph
    g.nodes = gn.nodes ∧
    (∀ x y, g.directedEdgeExists x y = g.directedEdgeExists y x) ∧
    (∀ x y e, g.getEdge x y = .ok e → e.etype = .undirected) ∧
    (∀ x y, g.edgeExists x y = true → x ∈ gn.nodes ∧ y ∈ gn.nodes ∧ x ≠ y) ∧
    ∀ x y, x ∈ gn.nodes → y ∈ gn.nodes → x ≠ y → g.edgeExists x y = false →
      ∃ r ∈ g.retrieveEdgeHistory x y .removeEdgeUndirected, Certificate T gn.nodes x y r := by
  intro g
  obtain ⟨h0, h1, h2⟩ := start_facts gn hgn T
  have hg : Inv T (startGraph gn) g := stages_inv hsym _ hxs (m := ⟨startGraph gn, h⟩) h0 hrun
  have hls : ∀ a b, g.live a b = g.live b a := by
    intro a b
    cases h1 : g.live a b with
    | true => rw [hg.sym a b h1]
    | false =>
      cases h2 : g.live b a with
      | true => rw [hg.sym b a h2] at h1; cases h1
      | false => rfl
  refine ⟨hg.nodes.trans h1, ?_, ?_, ?_, ?_⟩
  · intro x y
    rw [directedEdgeExists_eq hg.wf, directedEdgeExists_eq hg.wf, hls]
  · intro x y e he
    rw [getEdge_eq] at he
    cases hx : g.edges.get2 x y with
    | none => rw [hx] at he; cases he
    | some e' =>
      rw [hx] at he
      simp only [Option.elim_some, Except.ok.injEq] at he
      exact he ▸ hg.typ x y e' hx
  · intro x y hxy
    obtain ⟨hl, _⟩ := hg.live_of_exists hxy
    have := hg.wf.live_nodes hl
    rw [hg.nodes, h1] at this
    exact ⟨this.1, this.2, hg.wf.live_ne hl⟩
  · intro x y hx hy hxy hno
    have hl : g.live x y = false := by
      rw [edgeExists_eq hg.wf, Bool.or_eq_false_iff] at hno
      exact hno.1
    obtain ⟨r, hr, he, _⟩ := hg.cert x y (h2 x (h1 ▸ hx) y (h1 ▸ hy) hxy) hl
    exact ⟨r, by rw [he]; simp, h1 ▸ hr⟩

/-- orders, shuffles and dice for the examples: nothing is reordered and everything is dropped -/
def exParChoice : ParChoice Nat := ⟨exNbOrd, fun _ _ _ l => l, fun _ _ => [], exNbOrd, fun _ _ _ l => l⟩

theorem exParChoice_valid : exParChoice.Valid :=
  ⟨exNbOrd_valid, fun _ _ _ _ => .refl _, fun _ _ => List.nil_sublist _, exNbOrd_valid, fun _ _ _ _ => .refl _⟩

/-- the skeleton phase on the five nodes of the example, in batches of two triples, meets the hypotheses -/
example : CIStages exOracle (parallelSkeleton exOracle ⟨2, 2, 2⟩ exParChoice) ∧ (∀ a b, exOracle.pearson a b = exOracle.pearson b a) ∧
    ∃ out, Stages.Run 0 (parallelSkeleton exOracle ⟨2, 2, 2⟩ exParChoice) ⟨startGraph exPcNodes, []⟩ out :=
  ⟨parallelSkeleton_ci _ _ exParChoice_valid, fun _ _ => rfl, stages_exists _ _ _⟩

/-! ## C83 -/

/-- **C83.** With a perfect oracle for a DAG, no schedule of independence-test steps in the pool ever removes an adjacency of
the DAG, also if the run is cut off by an exception. -/
theorem C83_no_schedule_loses_adjacency (T : Tests ι ρ) (E : ι → ι → Prop) (gn : CGraph ι ρ) (hgn : Reachable gn)
    (hO : Oracle T E gn.nodes) (fuel : Nat) (xs : List (Stage ι (Info ι ρ))) (hxs : CIStages T xs)
    (h : List (HistRec ι (Info ι ρ))) (out : Except PyErr Unit × GModel ι (Info ι ρ))
    (hrun : Stages.Run fuel xs ⟨startGraph gn, h⟩ out) (x y : ι) (hxy : Dag.Adj E x y) :
    out.2.graph.edgeExists x y = true := by
  obtain ⟨h0, h1, h2⟩ := start_facts gn hgn T
  have hg : Inv T (startGraph gn) out.2.graph := stages_inv hO.sym _ hxs (m := ⟨startGraph gn, h⟩) h0 hrun
  exact edgeExists_of_live hg.wf (adj_live (h1 ▸ hO) h2 hg hxy)

/-- **C83, no exception.** The skeleton phase of `ParallelPC` finishes in every schedule, with any positive batch sizes. -/
theorem C83_no_schedule_raises (T : Tests ι ρ) (E : ι → ι → Prop) (gn : CGraph ι ρ) (hgn : Reachable gn)
    (hO : Oracle T E gn.nodes) (z : Sizes) (hz : z.triples ≠ 0 ∧ z.sampled ≠ 0 ∧ z.extended ≠ 0) (c : ParChoice ι) (hc : c.Valid)
    (fuel : Nat) (h : List (HistRec ι (Info ι ρ))) (out : Except PyErr Unit × GModel ι (Info ι ρ))
    (hrun : Stages.Run fuel (parallelSkeleton T z c) ⟨startGraph gn, h⟩ out) : out.1 = .ok () := by
  rw [← List.append_nil (parallelSkeleton T z c)] at hrun
  obtain ⟨_, _, _, _, _, _, _, _, _, _, _, _, _, _, _, _, _, _, hr⟩ := par_skeleton_split hgn hO hz hc hrun
  cases hr
  rfl

/-! ## C84 -/

/-- **C84, full statement, is false.** For every choice of batch sizes there is a DAG with a perfect oracle and a schedule of
`ParallelPC` after which an adjacency is left that the DAG does not have, whatever the set orders, shuffles and dice. -/
theorem C84_full_statement_fails (z : Sizes) (hz : z.triples ≠ 0 ∧ z.sampled ≠ 0 ∧ z.extended ≠ 0) :
    ∃ (T : Tests Nat Int) (E : Nat → Nat → Prop) (gn : CGraph Nat Int), Reachable gn ∧
      (∀ a b, gn.retrieveEdgeHistory a b .removeEdgeUndirected = []) ∧ Oracle T E gn.nodes ∧
      ∀ (c : ParChoice Nat), c.Valid → ∀ fuel h, ∃ m x y,
        Stages.Run fuel (parallelSkeleton T z c) ⟨startGraph gn, h⟩ (.ok (), m) ∧
        m.graph.edgeExists x y = true ∧ ¬ Dag.Adj E x y := by
  refine ⟨chainT z.triples, chainE z.triples, nodesOnly (chainN z.triples), nodesOnly_reachable _,
    fun a b => nodesOnly_history _ (nodup_chainN _) a b _, ?_, ?_⟩
  · rw [(nodesOnly_facts _ (nodup_chainN _)).1]
    exact chain_oracle _
  · intro c hc fuel h
    obtain ⟨m, h1, h2⟩ := chain_skeleton hz hc fuel h
    exact ⟨m, _, _, h1, h2, by unfold Dag.Adj chainE; omega⟩

/-- the batch sizes of the code are positive -/
example : codeSizes.triples ≠ 0 ∧ codeSizes.sampled ≠ 0 ∧ codeSizes.extended ≠ 0 := by decide

/-- **C84, partial.** With a perfect oracle for any DAG, whatever the schedule, orders, shuffles and dice: if the triples of
variables fit into one batch, the skeleton phase of `ParallelPC` does not raise and ends with exactly the adjacencies of the
DAG.  Missing: more triples than one batch holds, where the statement is false (`C84_full_statement_fails`). -/
theorem C84_parallel_skeleton_partial (T : Tests ι ρ) (E : ι → ι → Prop) (gn : CGraph ι ρ) (hgn : Reachable gn)
    (hO : Oracle T E gn.nodes) (z : Sizes) (hz : z.triples ≠ 0 ∧ z.sampled ≠ 0 ∧ z.extended ≠ 0)
    (hfit : gn.nodes.length.choose 3 ≤ z.triples) (c : ParChoice ι) (hc : c.Valid)
    (fuel : Nat) (h : List (HistRec ι (Info ι ρ))) (out : Except PyErr Unit × GModel ι (Info ι ρ))
    (hrun : Stages.Run fuel (parallelSkeleton T z c) ⟨startGraph gn, h⟩ out) :
    out.1 = .ok () ∧ out.2.graph.nodes = gn.nodes ∧ ∀ x y, out.2.graph.edgeExists x y = true ↔ Dag.Adj E x y := by
  rw [← List.append_nil (parallelSkeleton T z c)] at hrun
  obtain ⟨g, h', hs, hb, hr⟩ := par_skeleton_done hgn hO hz hfit hc hrun
  cases hr
  obtain ⟨_, hn, hc0⟩ := start_facts gn hgn T
  have hO' : Oracle T E (startGraph gn).nodes := hn ▸ hO
  refine ⟨rfl, hs.1.nodes.trans hn, ?_⟩
  intro x y
  constructor
  · intro he
    obtain ⟨hl, _⟩ := hs.1.live_of_exists he
    have hxy := hs.1.wf.live_nodes hl
    rw [hs.1.nodes] at hxy
    exact (hs.2 x y hxy.1 hxy.2 (hs.1.wf.live_ne hl)).1 hl
  · exact fun ha => edgeExists_of_live hs.1.wf (adj_live hO' hc0 hs.1 ha)

/-- with the batch sizes of the code that covers up to 67 variables and no more -/
theorem C84_code_sizes (n : Nat) : n.choose 3 ≤ codeSizes.triples ↔ n ≤ 67 := by
  constructor
  · intro h
    by_contra hn
    have h1 : (68 : Nat).choose 3 ≤ n.choose 3 := Nat.choose_le_choose 3 (by omega)
    have h2 : (68 : Nat).choose 3 = 50116 := by decide
    have h3 : codeSizes.triples = 50000 := rfl
    omega
  · intro h
    have h1 : n.choose 3 ≤ (67 : Nat).choose 3 := Nat.choose_le_choose 3 h
    have h2 : (67 : Nat).choose 3 = 47905 := by decide
    have h3 : codeSizes.triples = 50000 := rfl
    omega

/-- the example fits into the batch sizes of the code and has a run -/
example : exPcNodes.nodes.length.choose 3 ≤ codeSizes.triples ∧
    ∃ out, Stages.Run 0 (parallelSkeleton exOracle codeSizes exParChoice) ⟨startGraph exPcNodes, []⟩ out :=
  ⟨by rw [exPcNodes_nodes]; decide, stages_exists _ _ _⟩

/-! ## C85 -/

/-- **C85, partial.** With a perfect oracle for any DAG whose triples fit into one batch, from nodes without removal history: in every
schedule `ParallelPC` has exactly the adjacencies of the DAG, each one-way edge points as in the DAG, every unshielded collider
is oriented; with enough rounds it does not raise, its loop exits, and then none of Meek's four rules applies any more.  Missing: more triples than one batch holds (see C84). -/
theorem C85_parallel_orientation_partial (T : Tests ι ρ) (E : ι → ι → Prop) (gn : CGraph ι ρ) (hgn : Reachable gn)
    (hfresh : ∀ a b, gn.retrieveEdgeHistory a b .removeEdgeUndirected = [])
    (hO : Oracle T E gn.nodes) (z : Sizes) (hz : z.triples ≠ 0 ∧ z.sampled ≠ 0 ∧ z.extended ≠ 0)
    (hfit : gn.nodes.length.choose 3 ≤ z.triples) (c : ParChoice ι) (hc : c.Valid)
    (oc : Ord ι ρ) (hoc : oc.Valid) (o : Ords ι ρ) (ho : o.Valid)
    (fuel : Nat) (h : List (HistRec ι (Info ι ρ))) (out : Except PyErr Unit × GModel ι (Info ι ρ))
    (hrun : Stages.Run fuel (parallelPC T z c oc o) ⟨startGraph gn, h⟩ out) :
    let g := out.2.graph
    (∀ x y, g.edgeExists x y = true ↔ Dag.Adj E x y) ∧
    (∀ x y, g.Arrow x y → E x y) ∧
    (∀ x z y, Dag.VStructure E x z y → g.Arrow x z ∧ g.Arrow y z) ∧
    (gn.nodes.length * gn.nodes.length + 2 ≤ fuel → out.1 = .ok () ∧
      ∀ a b, ¬ g.Meek1 a b ∧ ¬ g.Meek2 a b ∧ ¬ g.Meek3 a b ∧ ¬ g.Meek4 a b) := by
  intro g
  have hr := par_whole hgn hfresh hO hz hfit hc hoc ho hrun
  refine ⟨fun x y => by rw [edge_iff hr.sound.wf, hr.sound.adj], hr.sound.arrow, ?_, fun hf => ⟨hr.ends hf, hr.closed (hr.ends hf)⟩⟩
  rintro x z y hv
  exact ⟨hr.sound.coll x z y hv, hr.sound.coll y z x ⟨⟨hv.1.2, hv.1.1⟩, hv.2.1.symm, fun hh => hv.2.2 hh.symm⟩⟩

/-- the example has such a run -/
example : (∃ out, Stages.Run 27 (parallelPC exOracle codeSizes exParChoice exSetOrd exSetOrds) ⟨startGraph exPcNodes, []⟩ out) ∧
    exPcNodes.nodes.length * exPcNodes.nodes.length + 2 ≤ 27 :=
  ⟨stages_exists _ _ _, by rw [exPcNodes_nodes]; decide⟩

end Verif
