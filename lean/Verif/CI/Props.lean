import Verif.CI.Lemmas4

/-!
# Properties of the independence-test phase (C38, C39, C40)
-/

namespace Verif
open Graph CI
variable {ι ρ : Type} [DecidableEq ι]

/-- the graph an algorithm starts with: all possible undirected edges between the nodes of `gn`, empty metadata
(causy/graph_model.py:185-195) -/
abbrev startGraph (gn : CGraph ι ρ) : CGraph ι ρ := (createAllPossibleEdges ({} : Info ι ρ) gn).2

/-- the graph after running a pipeline, also if the run raised -/
abbrev graphAfter (fuel : Nat) (ps : List (PStep ι (Info ι ρ))) (m : GModel ι (Info ι ρ)) : CGraph ι ρ :=
  (runPipeline fuel ps m).2.graph

/-! ## a concrete test oracle used in the examples: the chain 0 - 1 - 2 and the isolated node 3 -/

/-- correlations of the example -/
def exTests : Tests Nat Int where
  pearson a b := if a + b = 1 then 5 else if a + b = 3 ∧ a ≠ 0 ∧ b ≠ 0 then 4 else if a + b = 2 then 2 else 0
  t0 _ _ r := .ok (r == 0)
  t1 _ _ _ _ a b d := .ok (some (a * 10 == b * d))
  tm _ := .ok (some false)
  reg _ := .ok false

/-- a graph store holding the nodes 0, 1, 2, 3 -/
def exNodes : CGraph Nat Int := nodesOnly [0, 1, 2, 3]

/-- default configuration of the extended test, with some order of sets and no shuffling -/
def exCfg : NbCfg Nat where
  settings := ⟨4, 0⟩
  chunked := true
  shuffle := false
  setOrd := fun _ _ _ l => l.dedup
  shuf := fun _ _ _ l => l

theorem exCfg_valid : exCfg.Valid :=
  ⟨fun _ _ _ l => ⟨l.nodup_dedup, fun _ => List.mem_dedup⟩, fun _ _ _ _ => .refl _⟩

/-- the phase of the PC algorithm -/
def exPhase : List (PStep Nat (Info Nat Int)) :=
  [.plain (pearsonStep exTests), .plain (corrStep exTests), .plain (partialStep exTests),
    .plain (matrixStep exTests exCfg)]

theorem exPhase_ci : CIPipeline exTests exPhase := by
  intro p hp s hs
  simp only [exPhase, List.mem_cons, List.not_mem_nil, or_false] at hp
  rcases hp with rfl | rfl | rfl | rfl <;> simp only [PStep.steps, List.mem_singleton] at hs <;> subst hs
  · exact ⟨.pearson, trivial, rfl⟩
  · exact ⟨.correlation, trivial, rfl⟩
  · exact ⟨.partialCorrelation, trivial, rfl⟩
  · exact ⟨.matrix exCfg, exCfg_valid, rfl⟩

/-! ## C38 -/

/-- **C38.** Whatever independence-test steps are run, in whatever order, plain or inside logic steps, and wherever the run
stops: if two nodes are not adjacent, the history of their edge contains a removal that records a set of other variables
given which the test reported them independent. -/
theorem C38_missing_adjacency_certified (T : Tests ι ρ) (hsym : ∀ a b, T.pearson a b = T.pearson b a)
    (gn : CGraph ι ρ) (hgn : Reachable gn) (fuel : Nat) (ps : List (PStep ι (Info ι ρ))) (hps : CIPipeline T ps)
    (h : List (HistRec ι (Info ι ρ))) (x y : ι) (hx : x ∈ gn.nodes) (hy : y ∈ gn.nodes) (hxy : x ≠ y)
    (hno : (graphAfter fuel ps ⟨startGraph gn, h⟩).edgeExists x y = false) :
    ∃ r ∈ (graphAfter fuel ps ⟨startGraph gn, h⟩).retrieveEdgeHistory x y .removeEdgeUndirected,
      Certificate T gn.nodes x y r := by
  obtain ⟨h0, h1, h2⟩ := start_facts gn hgn T
  have hi := pipeline_inv T hsym _ fuel ps hps (m := ⟨startGraph gn, h⟩) h0
  have hl : (graphAfter fuel ps ⟨startGraph gn, h⟩).live x y = false := by
    rw [edgeExists_eq hi.wf, Bool.or_eq_false_iff] at hno
    exact hno.1
  obtain ⟨r, hr, he, _⟩ := hi.cert x y (h2 x (h1 ▸ hx) y (h1 ▸ hy) hxy) hl
  exact ⟨r, by rw [he]; simp, h1 ▸ hr⟩

/-- **C38, uniqueness.** If the nodes carry no removal history yet, the history of a missing edge holds exactly one
removal, the same for both directions. -/
theorem C38_single_certificate (T : Tests ι ρ) (hsym : ∀ a b, T.pearson a b = T.pearson b a)
    (gn : CGraph ι ρ) (hgn : Reachable gn) (fuel : Nat) (ps : List (PStep ι (Info ι ρ))) (hps : CIPipeline T ps)
    (h : List (HistRec ι (Info ι ρ))) (x y : ι) (hx : x ∈ gn.nodes) (hy : y ∈ gn.nodes) (hxy : x ≠ y)
    (hfresh : ∀ a b, gn.retrieveEdgeHistory a b .removeEdgeUndirected = [])
    (hno : (graphAfter fuel ps ⟨startGraph gn, h⟩).edgeExists x y = false) :
    ∃ r, Certificate T gn.nodes x y r ∧
      (graphAfter fuel ps ⟨startGraph gn, h⟩).retrieveEdgeHistory x y .removeEdgeUndirected = [r] ∧
      (graphAfter fuel ps ⟨startGraph gn, h⟩).retrieveEdgeHistory y x .removeEdgeUndirected = [r] := by
  obtain ⟨h0, h1, h2⟩ := start_facts gn hgn T
  have hi := pipeline_inv T hsym _ fuel ps hps (m := ⟨startGraph gn, h⟩) h0
  have hl : (graphAfter fuel ps ⟨startGraph gn, h⟩).live x y = false := by
    rw [edgeExists_eq hi.wf, Bool.or_eq_false_iff] at hno
    exact hno.1
  obtain ⟨r, hr, he, he'⟩ := hi.cert x y (h2 x (h1 ▸ hx) y (h1 ▸ hy) hxy) hl
  rw [createAll_history hgn, hfresh x y] at he
  rw [createAll_history hgn, hfresh y x] at he'
  exact ⟨r, h1 ▸ hr, by simpa using he, by simpa using he'⟩

/-- the run of the example removes 0 – 2 given 1 and the three edges of node 3 -/
example : let g := graphAfter 0 exPhase ⟨startGraph exNodes, []⟩
    g.edgeExists 0 2 = false ∧ g.edgeExists 0 3 = false ∧ g.edgeExists 0 1 = true ∧ g.edgeExists 1 2 = true ∧
    (g.retrieveEdgeHistory 0 2 .removeEdgeUndirected).map (fun r => r.data.bind Info.sep) = [some [1]] ∧
    (g.retrieveEdgeHistory 3 0 .removeEdgeUndirected).map (fun r => r.data.bind Info.sep) = [some []] := by
  decide +kernel

/-- the hypotheses of `C38_missing_adjacency_certified` and `C38_single_certificate` are met by that run -/
example : (∀ a b, exTests.pearson a b = exTests.pearson b a) ∧ Reachable exNodes ∧ CIPipeline exTests exPhase ∧
    (∀ a b, exNodes.retrieveEdgeHistory a b .removeEdgeUndirected = []) := by
  refine ⟨?_, nodesOnly_reachable _, exPhase_ci, fun a b => nodesOnly_history _ (by decide) a b _⟩
  intro a b
  have h1 : a + b = b + a := Nat.add_comm a b
  have h2 : (b + a = 3 ∧ a ≠ 0 ∧ b ≠ 0) ↔ (b + a = 3 ∧ b ≠ 0 ∧ a ≠ 0) := by omega
  simp only [exTests, h1, h2]

/-- **C38, no exception.** Correlations, then the marginal test, then any list of conditional tests in any configuration
their generators accept: the run finishes, so no lookup fails because an edge was removed earlier. -/
theorem C38_phase_never_raises (T : Tests ι ρ) (gn : CGraph ι ρ) (hgn : Reachable gn)
    (hT : T.Total gn.nodes) (hsym : ∀ a b, T.pearson a b = T.pearson b a) (fuel : Nat) (ts : List (CITest ι))
    (hts : ∀ t ∈ ts, t.Conditional ∧ t.Valid ∧ t.Sized) (h : List (HistRec ι (Info ι ρ))) :
    (runPipeline fuel (.plain (CITest.pearson.step T) :: .plain (CITest.correlation.step T) ::
      ts.map (fun t => .plain (t.step T))) ⟨startGraph gn, h⟩).1 = .ok () := by
  obtain ⟨h0, h1, h2⟩ := start_facts gn hgn T
  rw [← h1] at hT
  unfold runPipeline
  obtain ⟨tp1, g1, e1, i1, c1, hc1⟩ := pearson_phase hsym h0 h2
  rw [PyM.forEach_cons_ok (run_plain_ok fuel (s := CITest.pearson.step T) (m := ⟨startGraph gn, h⟩) e1 i1.wf)]
  have i1' : Inv T (startGraph gn) (purgeG g1) := by have := i1.purge; rwa [purge_run i1.wf] at this
  have c1' : Complete (purgeG g1) := by
    intro a ha b hb hab
    rw [nodes_purgeG] at ha hb
    rw [live_purgeG]
    exact c1 a ha b hb hab
  have hc1' : HasCorr (purgeG g1) := by
    intro a b e he
    rw [get2_purgeG] at he
    cases hx : g1.edges.get2 a b with
    | none => rw [hx] at he; cases he
    | some e' =>
      rw [hx] at he
      simp only at he
      split at he
      · cases he
      · cases he; exact hc1 a b e hx
  obtain ⟨tp2, g2, e2, i2⟩ := corr_phase hT hsym i1' c1' hc1'
  rw [PyM.forEach_cons_ok (run_plain_ok fuel (s := CITest.correlation.step T) (m := ⟨purgeG g1, _⟩) e2 i2.wf)]
  have i2' : Inv T (startGraph gn) (purgeG g2) := by have := i2.purge; rwa [purge_run i2.wf] at this
  generalize (h ++ _ ++ _ : List (HistRec ι (Info ι ρ))) = h'
  have : ∀ m : GModel ι (Info ι ρ), Inv T (startGraph gn) m.graph →
      (PyM.forEach (ts.map (fun t => PStep.plain (t.step T))) (PStep.run fuel) m).1 = .ok () := by
    clear e1 e2 i1 i2 i1' i2'
    induction ts with
    | nil => intro m _; rfl
    | cons t ts ih =>
      intro m hm
      obtain ⟨hc, hv, hz⟩ := hts t List.mem_cons_self
      obtain ⟨tp, g', e, i⟩ := conditional_phase hT hsym hm t hv hc hz
      rw [List.map_cons, PyM.forEach_cons_ok (run_plain_ok fuel e i.wf)]
      refine ih (fun t ht => hts t (List.mem_cons_of_mem _ ht)) _ ?_
      have := i.purge
      rwa [purge_run i.wf] at this
  exact this ⟨_, _⟩ i2'

/-- the example oracle answers every question and the example phase has the required form -/
example : exTests.Total exNodes.nodes ∧ exPhase = .plain (CITest.pearson.step exTests) :: .plain (CITest.correlation.step exTests) ::
    [CITest.partialCorrelation, .matrix exCfg].map (fun t => .plain (t.step exTests)) ∧
    (CITest.matrix exCfg).Sized :=
  ⟨⟨fun _ _ _ _ _ => ⟨_, rfl⟩, fun _ _ _ _ _ _ _ _ _ => ⟨_, rfl⟩, fun _ _ _ _ _ => ⟨_, rfl⟩, fun _ _ _ _ _ _ => ⟨_, rfl⟩⟩, rfl,
    by decide, Or.inl rfl⟩

/-- The order is needed: a second marginal test after a removal fails with `TypeError`, because it asks for the
correlation of an edge that is gone. -/
theorem C38_marginal_test_not_repeatable :
    (runPipeline 0 [.plain (CITest.pearson.step exTests), .plain (CITest.correlation.step exTests),
      .plain (CITest.correlation.step exTests)] ⟨startGraph exNodes, []⟩).1 = .error .typeError := by
  decide +kernel

/-! ## C39 -/

/-- **C39.** Wherever a run of independence-test steps stops: the nodes are unchanged, the edge relation is symmetric,
every edge is undirected, and every edge present was present at any earlier moment `m` of the phase. -/
theorem C39_phase_only_removes (T : Tests ι ρ) (hsym : ∀ a b, T.pearson a b = T.pearson b a)
    (gn : CGraph ι ρ) (hgn : Reachable gn) (fuel : Nat) (ps ps' : List (PStep ι (Info ι ρ))) (hps : CIPipeline T ps)
    (hps' : CIPipeline T ps') (h : List (HistRec ι (Info ι ρ))) :
    let m := (runPipeline fuel ps ⟨startGraph gn, h⟩).2
    let g := graphAfter fuel ps' m
    g.nodes = gn.nodes ∧
    (∀ x y, g.directedEdgeExists x y = g.directedEdgeExists y x) ∧
    (∀ x y e, g.getEdge x y = .ok e → e.etype = .undirected) ∧
    (∀ x y, g.edgeExists x y = true → m.graph.edgeExists x y = true) := by
  intro m g
  obtain ⟨h0, h1, h2⟩ := start_facts gn hgn T
  have hi := pipeline_inv T hsym _ fuel ps hps (m := ⟨startGraph gn, h⟩) h0
  have hm : Inv T m.graph m.graph := by
    refine ⟨hi.wf, rfl, hi.sym, hi.typ, hi.corr, fun _ _ h => h, fun _ _ _ => rfl, ?_⟩
    intro a b h h'; rw [h] at h'; cases h'
  have hg : Inv T m.graph g := pipeline_inv T hsym _ fuel ps' hps' hm
  have hls : ∀ a b, g.live a b = g.live b a := by
    intro a b
    cases h1 : g.live a b with
    | true => rw [hg.sym a b h1]
    | false =>
      cases h2 : g.live b a with
      | true => rw [hg.sym b a h2] at h1; cases h1
      | false => rfl
  refine ⟨hg.nodes.trans (hi.nodes.trans h1), ?_, ?_, ?_⟩
  · intro x y
    rw [directedEdgeExists_eq hg.wf, directedEdgeExists_eq hg.wf, hls]
  · intro x y e he
    rw [getEdge_eq] at he
    cases hx : g.edges.get2 x y with
    | none => rw [hx] at he; cases he
    | some e' =>
      rw [hx] at he
      simp only [Option.elim_some, Except.ok.injEq] at he
      exact he ▸ hg.typ x y e' hx
  · intro x y hxy
    rw [edgeExists_eq hg.wf, Bool.or_eq_true] at hxy
    rw [edgeExists_eq hi.wf, Bool.or_eq_true]
    exact hxy.imp (hg.le x y) (hg.le y x)

/-- strictly fewer edges after the marginal test and again after the triple test of the example -/
example : let m0 : GModel Nat (Info Nat Int) := ⟨startGraph exNodes, []⟩
    let m := (runPipeline 0 (exPhase.take 2) m0).2
    let g := graphAfter 0 (exPhase.drop 2) m
    m0.graph.edgeExists 0 3 = true ∧ m.graph.edgeExists 0 3 = false ∧ m.graph.edgeExists 0 2 = true ∧
      g.edgeExists 0 2 = false ∧ g.directedEdgeExists 1 0 = true := by
  decide +kernel

/-! ## C40 -/

/-- one round of the loop: a kept pair needs all three correlations -/
theorem C40_aux {T : Tests ι ρ} {g : CGraph ι ρ} (hwf : WF0 g) {a b d : ι} (h1 : a ≠ b) (h2 : a ≠ d) (h3 : b ≠ d)
    (hno : ¬ (g.edgeExists a b = true ∧ g.edgeExists a d = true ∧ g.edgeExists b d = true))
    (zs : List ι) (hzs : ∀ z ∈ zs, z ∈ [a, b, d]) (done : List (ι × ι)) :
    partialLoop T g [a, b, d] zs [] done = .ok none ∨ partialLoop T g [a, b, d] zs [] done = .ok (some []) := by
  have hsym : ∀ x y, g.edgeExists x y = g.edgeExists y x := by
    intro x y; rw [edgeExists_eq hwf, edgeExists_eq hwf, Bool.or_comm]
  have hnone : ∀ x y, g.edgeExists x y = false → corrOf g x y = none := by
    intro x y hxy
    unfold corrOf edgeValue
    simp [hxy]
  induction zs with
  | nil => exact Or.inr rfl
  | cons z zs ih =>
    have hfilter : ∃ x y, [a, b, d].filter (fun n => decide (n ≠ z)) = [x, y] ∧
        ¬ (g.edgeExists x y = true ∧ g.edgeExists x z = true ∧ g.edgeExists y z = true) := by
      obtain ⟨f1, f2, f3⟩ := filter_triple h1 h2 h3
      have hz := hzs z List.mem_cons_self
      simp only [List.mem_cons, List.not_mem_nil, or_false] at hz
      rcases hz with rfl | rfl | rfl
      · exact ⟨_, _, f1, fun hh => hno ⟨hsym z b ▸ hh.2.1, hsym z d ▸ hh.2.2, hh.1⟩⟩
      · exact ⟨_, _, f2, fun hh => hno ⟨hh.2.1, hh.1, hsym z d ▸ hh.2.2⟩⟩
      · exact ⟨_, _, f3, hno⟩
    obtain ⟨x, y, hf, hn⟩ := hfilter
    unfold partialLoop
    rw [hf]
    simp only
    split
    · exact ih (fun z hz => hzs z (List.mem_cons_of_mem _ hz))
    · rename_i hc
      have hxy : g.edgeExists x y = true := by
        cases hx : g.edgeExists x y with
        | true => rfl
        | false => simp [hx] at hc
      left
      cases hxz : g.edgeExists x z with
      | false => simp [hnone x z hxz]
      | true =>
        cases hyz : g.edgeExists y z with
        | false => simp [hnone y z hyz]
        | true => exact absurd ⟨hxy, hxz, hyz⟩ hn

/-- **C40.** `PartialCorrelationTest` on three different nodes of any graph: unless all three pairs are adjacent, it
proposes nothing at all, whatever the numbers are. -/
theorem C40_partial_test_only_on_triangles (T : Tests ι ρ) (g : CGraph ι ρ) (hg : Reachable g) (a b d : ι)
    (ha : a ∈ g.nodes) (hb : b ∈ g.nodes) (hd : d ∈ g.nodes) (h1 : a ≠ b) (h2 : a ≠ d) (h3 : b ≠ d)
    (hno : g.edgeExists a b = false ∨ g.edgeExists a d = false ∨ g.edgeExists b d = false) :
    partialProcess T [a, b, d] g = .ok none ∨ partialProcess T [a, b, d] g = .ok (some []) := by
  unfold partialProcess
  rw [if_pos (by simp [ha, hb, hd])]
  refine C40_aux hg.wf h1 h2 h3 ?_ _ (fun _ hz => hz) []
  rintro ⟨h1, h2, h3⟩
  simp [h1, h2, h3] at hno

/-- **C40, other direction.** Every removal it proposes concerns two of the three nodes, conditions on the third, and all
three pairs are adjacent. -/
theorem C40_removals_condition_on_common_neighbour (T : Tests ι ρ) (g : CGraph ι ρ) (hg : Reachable g) (a b d : ι)
    (ha : a ∈ g.nodes) (hb : b ∈ g.nodes) (hd : d ∈ g.nodes) (h1 : a ≠ b) (h2 : a ≠ d) (h3 : b ≠ d)
    (rs : List (CResult ι ρ)) (h : partialProcess T [a, b, d] g = .ok (some rs)) (r : CResult ι ρ) (hr : r ∈ rs) :
    g.edgeExists a b = true ∧ g.edgeExists a d = true ∧ g.edgeExists b d = true := by
  by_contra hno
  rcases C40_partial_test_only_on_triangles T g hg a b d ha hb hd h1 h2 h3 (by
    by_contra hc
    push Not at hc
    exact hno (by simpa using hc)) with hh | hh
  · rw [hh] at h; cases h
  · rw [hh] at h; cases h; cases hr

/-- in the example, the triangle 0, 1, 2 yields a removal and the triple 0, 1, 3 yields nothing -/
example : let g := (runPipeline 0 (exPhase.take 2) ⟨startGraph exNodes, []⟩).2.graph
    partialProcess exTests [0, 1, 2] g = .ok (some [keep 1 2, removal 0 2 [1], keep 0 1]) ∧
    partialProcess exTests [0, 1, 3] g = .ok none ∧ g.edgeExists 0 3 = false := by
  decide +kernel

end Verif
