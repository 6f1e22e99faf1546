import Verif.EndToEnd.Whole
import Verif.EndToEnd.Props

/-!
# Properties of the complete algorithms on data from linear equations (C114, C115)
-/

namespace Verif
open Graph CI PC Linear Stats Sample EndToEnd
variable {ι : Type} [DecidableEq ι] {n : ℕ}

theorem reg_unused_parallel {ρ : Type} (T : Tests ι ρ) (r : List ι → Except PyErr Bool) (z : Sizes) (c : ParChoice ι)
    (oc : Orient.Ord ι ρ) (o : Orient.Ords ι ρ) : parallelPC { T with reg := r } z c oc o = parallelPC T z c oc o := by
  have h : CI.partialStep { T with reg := r } = CI.partialStep T := by
    unfold CI.partialStep CI.partialProcess
    simp only [partialLoop_reg]
  unfold parallelPC parallelSkeleton
  rw [h]
  rfl

theorem learned {edges : List (SEdge ι ℝ)} {noise col : ι → Fin n → ℝ} {N : List ι} (hd : LinearData edges noise col N)
    (hm : ∀ v ∈ N, MeanZero (noise v)) {fuel : Nat} {x : Except PyErr Unit × GModel ι (Info ι (Option ℝ))}
    (hx : Oriented (HasEdge edges) N fuel x) (hf : N.length * N.length + 2 ≤ fuel) {g' : CGraph ι (Option ℝ)}
    (hwf : WF0 g') (hw : Effects.WithEffectsIn some col x.2.graph g') : Learned edges g' := by
  have hc := hx.closed (hx.ends hf)
  have hE : ∀ a b, HasEdge edges a b → a ∈ N ∧ b ∈ N :=
    fun a b h => ⟨(hd.vars a).2 (mentioned_src h), (hd.vars b).2 (mentioned_dst h)⟩
  have ha := (completed hd.acyclic hE hx.sound hx.equiv (fun a b => ⟨(hc a b).1, (hc a b).2.1, (hc a b).2.2.1⟩)).1
  refine ⟨fun a b => ?_, fun a b => ?_, fun a b hab hnl => hd.effects hm hx.sound hw hab hnl⟩
  · rw [← hx.sound.adj, ← edge_iff hx.sound.wf, edgeExists_eq hwf, edgeExists_eq hx.sound.wf,
      ← directedEdgeExists_eq hwf, ← directedEdgeExists_eq hwf, ← directedEdgeExists_eq hx.sound.wf,
      ← directedEdgeExists_eq hx.sound.wf, hw.edges, hw.edges]
  · rw [← ha]
    unfold Graph.Arrow
    rw [hw.edges, hw.edges]

theorem oracle_of_data {edges : List (SEdge ι ℝ)} {noise col : ι → Fin n → ℝ} {N : List ι} (hd : LinearData edges noise col N)
    {Φ : ℝ → ℝ} (hΦ : NormalLike Φ) (Q : ℝ → ℕ → ℝ) (solve : Solver n) {threshold q : ℝ} (ht : threshold < 1)
    (hqΦ : Φ q = 1 - threshold / 2) (hv : Visible (HasEdge edges) N q col) (hn : N.length + 1 ≤ n) :
    Oracle (withoutRegression (dataTests Φ Q solve threshold col) (HasEdge edges)) (HasEdge edges) N :=
  data_oracle hΦ.mono hqΦ hd.acyclic
    (fun a b h => ⟨(hd.vars a).2 (mentioned_src h), (hd.vars b).2 (mentioned_dst h)⟩)
    (structural_noRelation hd.acyclic hd.equations hd.vars hd.uncorrelated hd.varies) hn
    (right_of_linear hd.acyclic hd.equations hd.vars hd.uncorrelated (critical_pos hΦ ht hqΦ) hv)

/-! ## C114 -/

/-- **C114.** On data from linear equations with noise that averages to zero and is uncorrelated in the sample, with more
samples than variables, and with no dependence hidden from the tests at the configured threshold, `PC` and `PCClassic` with
all their steps do not raise; the result has exactly the adjacencies of the DAG and directs exactly the compelled edges, and
each arrow into a variable without undirected edges carries the coefficient of the equation as its direct effect. -/
theorem C114_graph_and_coefficients {edges : List (SEdge ι ℝ)} {noise col : ι → Fin n → ℝ} (gn : CGraph ι (Option ℝ))
    (hd : LinearData edges noise col gn.nodes) (hm : ∀ v ∈ gn.nodes, MeanZero (noise v))
    (Φ : ℝ → ℝ) (hΦ : NormalLike Φ) (Q : ℝ → ℕ → ℝ) (solve : Solver n)
    (threshold q : ℝ) (ht : threshold < 1) (hqΦ : Φ q = 1 - threshold / 2)
    (hv : Visible (HasEdge edges) gn.nodes q col) (hn : gn.nodes.length + 1 ≤ n)
    (hgn : ReachableClean gn) (hfresh : ∀ a b, gn.retrieveEdgeHistory a b .removeEdgeUndirected = [])
    (ord : NbOrd ι) (ho : ord.Valid) (oc : Orient.Ord ι (Option ℝ)) (hoc : oc.Valid) (o : Orient.Ords ι (Option ℝ))
    (ho' : o.Valid) (alg : List (PStep ι (Info ι (Option ℝ))))
    (halg : alg = pc (dataTests Φ Q solve threshold col) ord oc o ∨
      alg = pcClassic (dataTests Φ Q solve threshold col) ord oc o)
    (D : Effects.Source ι (Option ℝ)) (hD : EffectData D col gn.nodes)
    (fuel : Nat) (hf : gn.nodes.length * gn.nodes.length + 2 ≤ fuel) (hist : List (HistRec ι (Info ι (Option ℝ)))) :
    let full := alg ++ [.plain (Effects.effectStep D)]
    (runPipeline fuel full ⟨startGraph gn, hist⟩).1 = .ok () ∧
    Learned edges (graphAfter fuel full ⟨startGraph gn, hist⟩) := by
  intro full
  have hO := oracle_of_data hd hΦ Q solve ht hqΦ hv hn
  have hr : Oriented (HasEdge edges) gn.nodes fuel (runPipeline fuel alg ⟨startGraph gn, hist⟩) := by
    rcases halg with rfl | rfl
    · rw [← (reg_unused (dataTests Φ Q solve threshold col) _ ord oc o).1]
      exact whole_run hgn.reachable hfresh hO ho (Or.inl rfl) hoc ho' fuel hist
    · rw [← (reg_unused (dataTests Φ Q solve threshold col) _ ord oc o).2]
      exact whole_run hgn.reachable hfresh hO ho (Or.inr rfl) hoc ho' fuel hist
  have hcl := Effects.createAll_clean hgn ({} : Info ι (Option ℝ))
  obtain ⟨h1, h2⟩ := Effects.last_run_in hD.solver fuel alg ⟨startGraph gn, hist⟩ hcl.reachable.wf hcl.revExact (hr.ends hf)
    (X := col) (by intro p hp; exact hD.values p (hr.nodes ▸ hp))
  exact ⟨h1, learned hd hm hr hf
    (Effects.runPipeline_clean fuel full ⟨startGraph gn, hist⟩ hcl.reachable.wf hcl.revExact).1 h2⟩

/-- **C114, generated data.** In particular: generating data with `IIDSampleGenerator` from draws that average to zero and are
uncorrelated in the sample, loading them (as the dictionary of columns or as the list of rows) and running the complete `PC` or
`PCClassic` gives back the graph and the coefficients that the user gave to the generator. -/
theorem C114_generated {κ δ : Type} [LinearOrder κ] (m0 : δ) (edges : List (SEdge κ ℝ)) (sorted : List κ → List κ)
    (hs : ∀ l, (sorted l).Perm l) (rounds : ℕ) (vars : List κ) (hvars : iidVariables sorted rounds edges = some vars)
    (rand : ℕ → ℝ) (hg : GoodDraws n rand vars) (hm : ∀ v ∈ vars, MeanZero (draws n rand vars v))
    (Φ : ℝ → ℝ) (hΦ : NormalLike Φ) (threshold q : ℝ) (ht : threshold < 1)
    (hqΦ : Φ q = 1 - threshold / 2) (hv : AllVisible edges n rand vars q) (hn : vars.length + 1 ≤ n) :
    ∃ out sample, iidGenerate m0 n rand edges vars = .ok (out, sample) ∧
      ∀ input, input = Data.Input.dict (columnLists out) ∨ input = .list (shapedData out) →
        ∃ nodes, Data.createGraph input = .ok nodes ∧
          ∀ (Q : ℝ → ℕ → ℝ) (solve : Solver n) (ord : NbOrd κ), ord.Valid → ∀ (oc : Orient.Ord κ (Option ℝ)), oc.Valid →
          ∀ (o : Orient.Ords κ (Option ℝ)), o.Valid → ∀ alg : List (PStep κ (Info κ (Option ℝ))),
          alg = pc (dataTests Φ Q solve threshold (nodeValues nodes)) ord oc o ∨
            alg = pcClassic (dataTests Φ Q solve threshold (nodeValues nodes)) ord oc o →
          ∀ lstsq, Effects.LeastSquaresIn some lstsq →
          ∀ fuel : ℕ, nodes.length * nodes.length + 2 ≤ fuel → ∀ hist : List (HistRec κ (Info κ (Option ℝ))),
            let D : Effects.Source κ (Option ℝ) := ⟨fun v => some (List.ofFn fun i : Fin n => some (nodeValues nodes v i)), lstsq⟩
            let full := alg ++ [.plain (Effects.effectStep D)]
            (runPipeline fuel full ⟨startGraph (loadedGraph nodes), hist⟩).1 = .ok () ∧
            Learned edges (graphAfter fuel full ⟨startGraph (loadedGraph nodes), hist⟩) := by
  have htop := topological_of_variables hs hvars
  obtain ⟨out, sample, h1, h2, h3⟩ := generated_columns (n := n) m0 htop rand (by omega)
  refine ⟨out, sample, h1, fun input hi => ?_⟩
  obtain ⟨nodes, e1, e2, e3, e4, e5⟩ := h3 input hi
  refine ⟨nodes, e1, ?_⟩
  intro Q solve ord ho oc hoc o ho' alg halg lstsq hls fuel hf hist
  have hl : (loadedGraph nodes).nodes.length = nodes.length := by rw [e2.length_eq, e3]
  exact C114_graph_and_coefficients (loadedGraph nodes) (linearData_generated htop e2 hg e5)
    (fun v hv => hm v (e2.mem_iff.1 hv)) Φ hΦ Q solve threshold q ht hqΦ (visible_perm e2 (hv _ e5))
    (by rw [hl, e3]; exact hn) (Effects.nodesOnly_clean _) (fun a b => nodesOnly_history _ e4 a b _) ord ho oc hoc o ho' alg halg
    _ ⟨fun _ _ => rfl, hls⟩ fuel (by rw [hl]; exact hf) hist

/-! ## C115 -/

/-- **C115.** The same for `ParallelPC` in every schedule of its worker processes and for all choices of its random numbers, if
the triples of variables fit into one batch (up to 67 variables with the sizes of the code). -/
theorem C115_parallel_graph_and_coefficients {edges : List (SEdge ι ℝ)} {noise col : ι → Fin n → ℝ} (gn : CGraph ι (Option ℝ))
    (hd : LinearData edges noise col gn.nodes) (hm : ∀ v ∈ gn.nodes, MeanZero (noise v))
    (Φ : ℝ → ℝ) (hΦ : NormalLike Φ) (Q : ℝ → ℕ → ℝ) (solve : Solver n)
    (threshold q : ℝ) (ht : threshold < 1) (hqΦ : Φ q = 1 - threshold / 2)
    (hv : Visible (HasEdge edges) gn.nodes q col) (hn : gn.nodes.length + 1 ≤ n)
    (hgn : ReachableClean gn) (hfresh : ∀ a b, gn.retrieveEdgeHistory a b .removeEdgeUndirected = [])
    (z : Sizes) (hz : z.triples ≠ 0 ∧ z.sampled ≠ 0 ∧ z.extended ≠ 0) (hfit : gn.nodes.length.choose 3 ≤ z.triples)
    (c : ParChoice ι) (hc : c.Valid) (oc : Orient.Ord ι (Option ℝ)) (hoc : oc.Valid) (o : Orient.Ords ι (Option ℝ))
    (ho : o.Valid) (D : Effects.Source ι (Option ℝ)) (hD : EffectData D col gn.nodes)
    (fuel : Nat) (hf : gn.nodes.length * gn.nodes.length + 2 ≤ fuel) (hist : List (HistRec ι (Info ι (Option ℝ))))
    (out : Except PyErr Unit × GModel ι (Info ι (Option ℝ)))
    (hrun : Stages.Run fuel (parallelPC (dataTests Φ Q solve threshold col) z c oc o ++ [.seq (.plain (Effects.effectStep D))])
      ⟨startGraph gn, hist⟩ out) :
    out.1 = .ok () ∧ Learned edges out.2.graph := by
  have hO := oracle_of_data hd hΦ Q solve ht hqΦ hv hn
  have hcl := Effects.createAll_clean hgn ({} : Info ι (Option ℝ))
  have whole : ∀ x, Stages.Run fuel (parallelPC (dataTests Φ Q solve threshold col) z c oc o) ⟨startGraph gn, hist⟩ x →
      Oriented (HasEdge edges) gn.nodes fuel x ∧ WF0 x.2.graph ∧ RevExact x.2.graph := by
    intro x hx
    refine ⟨?_, stages_clean hx ⟨hcl.reachable.wf, hcl.revExact⟩⟩
    rw [← reg_unused_parallel (dataTests Φ Q solve threshold col)] at hx
    exact par_whole hgn.reachable hfresh hO hz hfit hc hoc ho hx
  rcases stages_append.1 hrun with ⟨m', h1, h2⟩ | ⟨e, m', h1, h2⟩
  · obtain ⟨w1, w2, w3⟩ := whole _ h1
    have h2' := (stages_seq (ps := [.plain (Effects.effectStep D)])).1 h2
    obtain ⟨k1, k2⟩ := Effects.last_run_in hD.solver fuel [] m' w2 w3 rfl
      (X := col) (by intro p hp; exact hD.values p (w1.nodes ▸ hp))
    have k3 := (Effects.runPipeline_clean fuel [.plain (Effects.effectStep D)] m' w2 w3).1
    rw [h2']
    exact ⟨k1, learned hd hm w1 hf k3 k2⟩
  · have := (whole _ h1).1.ends hf
    cases this

/-! ## examples -/

/-- a solver for the last step exists -/
theorem effectSolver_exists : ∃ lstsq, Effects.LeastSquaresIn (some : ℝ → Option ℝ) lstsq := by
  obtain ⟨l, hl⟩ := Effects.leastSquares_exists
  refine ⟨fun cols y => (l (cols.map (fun c => c.map (fun v => v.getD 0))) (y.map (fun v => v.getD 0))).map some, ?_⟩
  intro k m cols y
  obtain ⟨b, hb, hs⟩ := hl k m cols y
  refine ⟨b, ?_, hs⟩
  simp only [List.map_ofFn, Function.comp_def, Option.getD_some] at hb ⊢
  rw [hb, List.map_ofFn]
  rfl

/-- hypotheses of C114 and C115 that C103 does not have -/
example : (∀ v ∈ [0, 1, 2], MeanZero (fun i => (exSigns v i : ℝ))) ∧
    ∃ D, EffectData D (fun v i => (exLinTable v i : ℝ)) [0, 1, 2] := by
  refine ⟨?_, ?_⟩
  · intro v hv
    unfold MeanZero
    rw [← Int.cast_sum, Int.cast_eq_zero]
    revert v
    decide
  · obtain ⟨l, hl⟩ := effectSolver_exists
    exact ⟨⟨fun v => some (List.ofFn fun i => some (exLinTable v i : ℝ)), l⟩, fun _ _ => rfl, hl⟩

/-- an edge of `0 → 2 ← 1` in a graph with the adjacencies and arrows of C114 -/
theorem exLin_learned {g : CGraph ℕ (Option ℝ)} (hwf : WF0 g) (h : Learned exLinEdges g) :
    ∃ m, g.edgeValue 0 2 = .ok (some m) ∧ m.effect = some (some 1) := by
  have harr : ∀ a, a = 0 ∨ a = 1 → g.Arrow a 2 := by
    intro a ha
    rw [h.arrows]
    intro E' _ he
    have := (he.2 0 2 1).1 ⟨⟨by rw [exLin_edge]; decide, by rw [exLin_edge]; decide⟩, by decide, by
      simp only [Dag.Adj, exLin_edge]; decide⟩
    rcases ha with rfl | rfl
    · exact this.1.1
    · exact this.1.2
  have hw : weight exLinEdges 0 2 = 1 := by simp [weight, exLinEdges]
  rw [← hw]
  refine h.effects 0 2 (harr 0 (Or.inl rfl)) ?_
  intro c hc
  have hadj : Dag.Adj (HasEdge exLinEdges) c 2 := by
    rw [← h.adjacent, edge_iff hwf]
    exact hc.adj
  have : c = 0 ∨ c = 1 := by
    simp only [Dag.Adj, exLin_edge, List.mem_cons, Prod.mk.injEq, List.not_mem_nil, or_false] at hadj
    omega
  have hn := (harr c this).2
  rw [hc.2] at hn
  cases hn

/-- the hypotheses of C114 for `0 → 2 ← 1`, significance level 62% (critical value 1/2) -/
theorem exLin_complete (Q : ℝ → ℕ → ℝ) (solve : Solver 8) (ord : NbOrd ℕ) (ho : ord.Valid) (oc : Orient.Ord ℕ (Option ℝ))
    (hoc : oc.Valid) (o : Orient.Ords ℕ (Option ℝ)) (ho' : o.Valid) (D : Effects.Source ℕ (Option ℝ))
    (hD : EffectData D (fun v i => (exLinTable v i : ℝ)) [0, 1, 2]) (gn : CGraph ℕ (Option ℝ)) (hn : gn.nodes = [0, 1, 2])
    (hgn : ReachableClean gn) (hfresh : ∀ a b, gn.retrieveEdgeHistory a b .removeEdgeUndirected = []) :
    ∃ m, (graphAfter 11 (pc (dataTests normalCdf Q solve (levelOf (1 / 2)) (fun v i => (exLinTable v i : ℝ))) ord oc o ++
      [.plain (Effects.effectStep D)]) ⟨startGraph gn, []⟩).edgeValue 0 2 = .ok (some m) ∧ m.effect = some (some 1) := by
  have key := C114_graph_and_coefficients (noise := fun v i => (exSigns v i : ℝ)) gn
    (by rw [hn]; exact exLin_data) (by
      rw [hn]
      intro v hv
      unfold MeanZero
      rw [← Int.cast_sum, Int.cast_eq_zero]
      revert v
      decide) normalCdf
    normalCdf_normalLike Q solve (levelOf (1 / 2)) (1 / 2) (levelOf_lt (by norm_num)).2 (levelOf_eq _) (by
      rw [hn]
      intro x y S hq hs r hr
      exact le_trans (by norm_num) (exLin_visible x y S hq hs r hr)) (by rw [hn]; decide)
    hgn hfresh ord ho oc hoc o ho' _ (Or.inl rfl) D (hn ▸ hD) 11 (by rw [hn]; decide) []
  have hcl := Effects.createAll_clean hgn ({} : Info ℕ (Option ℝ))
  exact exLin_learned (Effects.runPipeline_clean 11 (pc (dataTests normalCdf Q solve (levelOf (1 / 2))
    (fun v i => (exLinTable v i : ℝ))) ord oc o ++ [.plain (Effects.effectStep D)]) ⟨startGraph gn, []⟩ hcl.reachable.wf
    hcl.revExact).1 key.2

example : (nodesOnly (δ := Info ℕ (Option ℝ)) [0, 1, 2]).nodes = [0, 1, 2] ∧
    ReachableClean (nodesOnly (δ := Info ℕ (Option ℝ)) [0, 1, 2]) ∧
    ∀ a b, (nodesOnly (δ := Info ℕ (Option ℝ)) [0, 1, 2]).retrieveEdgeHistory a b .removeEdgeUndirected = [] :=
  ⟨(nodesOnly_facts [0, 1, 2] (by decide)).1, Effects.nodesOnly_clean _, fun a b => nodesOnly_history _ (by decide) a b _⟩

end Verif
