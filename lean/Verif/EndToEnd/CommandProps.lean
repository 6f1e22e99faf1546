import Verif.EndToEnd.Command

/-!
# `causy execute` on data from linear equations (C127)
-/

namespace Verif
open Graph CI PC Linear Stats Sample EndToEnd Cli Data
variable {ι : Type} [LinearOrder ι] {n : ℕ}

/-- **C127.** From file to file.  Let the data file hold `n` samples from linear equations, with noise that averages to zero and
is uncorrelated in the sample, more samples than variables, and no dependence hidden from the tests at the threshold.  Then
`causy execute` with the algorithm `PC`, or `ParallelPC` and at most 67 variables, cannot fail in any schedule of the worker
processes, and the result it writes has the columns as nodes and lists exactly the adjacencies of the DAG, directs exactly the
compelled edges, and gives the coefficients of the equations on the arrows into variables without undirected edges; the
screen shows the same edges. -/
theorem C127_file_to_file {edges : List (SEdge ι ℝ)} {noise : ι → Fin n → ℝ} (M : Machine ι) (hM : M.Valid)
    (env : Env ι ℝ (Info ι (Option ℝ))) (hav : env.available = M.available) (o : Options) (name : String)
    (hpipe : absent o.pipeline) (halg : o.algorithm = some name) (j : Json ι ℝ) (hj : env.document = .ok j)
    (nodes : Nodes ι ℝ) (hd : Holds j nodes) (hne : nodes ≠ []) (hcols : ∀ p ∈ nodes, p.2.length = n)
    (hname : name = "PC" ∨ name = "ParallelPC" ∧ nodes.length ≤ 67)
    (hdata : LinearData edges noise (nodeValues nodes) (nodes.map Prod.fst))
    (hm : ∀ v ∈ nodes.map Prod.fst, MeanZero (noise v)) (q : ℝ) (hqΦ : M.Φ q = 1 - M.threshold / 2)
    (hv : Visible (HasEdge edges) (nodes.map Prod.fst) q (nodeValues (n := n) nodes)) (hn : nodes.length + 1 ≤ n)
    (fuel : Nat) (hf : nodes.length * nodes.length + 2 ≤ fuel) :
    (∃ r, Executes {} fuel env o (.ok r)) ∧
    ∀ out, Executes {} fuel env o out → ∃ r, out = .ok r ∧ Reports edges r ∧ Delivers o name nodes r := by
  have hs : sampleCount nodes = n := by
    cases nodes with
    | nil => exact absurd rfl hne
    | cons p l => exact hcols p List.mem_cons_self
  subst hs
  have hnd := loadData_nodup ((loadData_iff env j nodes hj).2 hd)
  have hN : (loadedGraph nodes).nodes = nodes.map Prod.fst := (nodesOnly_facts _ hnd).1
  have hl : (loadedGraph nodes).nodes.length = nodes.length := by rw [hN, List.length_map]
  have hD := effectData_of_nodes M hM hcols
  have hhist : ∀ a b, (loadedGraph nodes).retrieveEdgeHistory a b .removeEdgeUndirected = [] :=
    fun a b => nodesOnly_history _ hnd a b _
  rcases hname with rfl | ⟨rfl, h67⟩
  · have hsel : Selects env o M.pc (.name "PC") := .name _ _ hpipe halg (by decide) (by rw [hav]; simp [Machine.available])
    refine command_reports (M := M) hsel hj hd (.inl rfl) ?_
    intro out hrun
    have hrun' := stages_seq.1 hrun
    obtain ⟨h1, h2⟩ := C114_graph_and_coefficients (loadedGraph nodes) (hN ▸ hdata) (hN ▸ hm) M.Φ hM.normal M.Q
      (M.solve (sampleCount nodes)) M.threshold q hM.threshold hqΦ (hN ▸ hv) (by rw [hl]; exact hn)
      (Effects.nodesOnly_clean _) hhist M.ord hM.ord M.oc hM.oc M.o hM.o _ (.inl rfl) _ (hN ▸ hD) fuel (by rw [hl]; exact hf) []
    rw [hrun']
    exact ⟨h1, h2⟩
  · have hsel : Selects env o M.parallelPC (.name "ParallelPC") :=
      .name _ _ hpipe halg (by decide) (by rw [hav]; simp [Machine.available])
    refine command_reports (M := M) hsel hj hd (.inr rfl) ?_
    intro out hrun
    exact C115_parallel_graph_and_coefficients (loadedGraph nodes) (hN ▸ hdata) (hN ▸ hm) M.Φ hM.normal M.Q
      (M.solve (sampleCount nodes)) M.threshold q hM.threshold hqΦ (hN ▸ hv) (by rw [hl]; exact hn)
      (Effects.nodesOnly_clean _) hhist codeSizes (by decide) (by rw [hl]; exact (C84_code_sizes _).2 h67) M.choice hM.choice
      M.oc hM.oc M.o hM.o _ (hN ▸ hD) fuel (by rw [hl]; exact hf) [] out hrun

/-- **C127, generated data.** In particular for a file with data from `IIDSampleGenerator`, as a dictionary of columns or as a
list of rows, from draws that average to zero and are uncorrelated in the sample: what the user gave to the generator is what
the result file says. -/
theorem C127_generated {δ : Type} (m0 : δ) (edges : List (SEdge ι ℝ)) (sorted : List ι → List ι)
    (hs : ∀ l, (sorted l).Perm l) (rounds : ℕ) (vars : List ι) (hvars : iidVariables sorted rounds edges = some vars)
    (hne : vars ≠ []) (rand : ℕ → ℝ) (hg : GoodDraws n rand vars) (hm : ∀ v ∈ vars, MeanZero (draws n rand vars v))
    (M : Machine ι) (hM : M.Valid) (q : ℝ) (hqΦ : M.Φ q = 1 - M.threshold / 2) (hv : AllVisible edges n rand vars q)
    (hn : vars.length + 1 ≤ n) :
    ∃ out sample, iidGenerate m0 n rand edges vars = .ok (out, sample) ∧
      ∀ j, j = Json.dict (columnLists out) ∨ j = .list (shapedData out) →
      ∃ nodes : Nodes ι ℝ, (nodes.map Prod.fst).Perm vars ∧
      ∀ (env : Env ι ℝ (Info ι (Option ℝ))), env.available = M.available → env.document = .ok j →
      ∀ (o : Options) (name : String), absent o.pipeline → o.algorithm = some name →
      (name = "PC" ∨ name = "ParallelPC" ∧ vars.length ≤ 67) → ∀ fuel, vars.length * vars.length + 2 ≤ fuel →
        (∃ r, Executes {} fuel env o (.ok r)) ∧
        ∀ res, Executes {} fuel env o res → ∃ r, res = .ok r ∧ Reports edges r ∧ Delivers o name nodes r := by
  have htop := topological_of_variables hs hvars
  obtain ⟨out, sample, h1, h2, h3⟩ := generated_columns (n := n) m0 htop rand (by omega)
  refine ⟨out, sample, h1, fun j hjj => ?_⟩
  have hinput : ∃ nodes : Nodes ι ℝ, Holds j nodes ∧ (∀ p ∈ nodes, p.2.length = n) ∧ (loadedGraph nodes).nodes.Perm vars ∧
      nodes.length = vars.length ∧ (nodes.map Prod.fst).Nodup ∧ Structural edges (draws n rand vars) (nodeValues nodes) := by
    rcases hjj with rfl | rfl
    · obtain ⟨nodes, e1, e⟩ := h3 _ (.inl rfl)
      obtain ⟨g, c1, c2, c3⟩ := C52_dict (columnLists out)
      rw [e1] at c1
      cases c1
      refine ⟨nodes, .columns _ _ c2 c3, ?_, e⟩
      rintro ⟨k, col⟩ hp
      have := (c3 k col).1 hp
      rw [columnLists_get] at this
      cases hx : out.get? k with
      | none => rw [hx] at this; cases this
      | some c => rw [hx] at this; cases this; simp
    · obtain ⟨nodes, e1, e⟩ := h3 _ (.inr rfl)
      have hlen : (shapedData out).length = n := by simp [shapedData]
      cases hx : shapedData out with
      | nil => rw [hx] at hlen; simp at hlen; omega
      | cons first rows =>
        rw [hx] at e1 hlen
        obtain ⟨c1, c2⟩ := (C52_rows first rows nodes).1 e1
        refine ⟨nodes, .rows _ _ _ c1 c2, ?_, e⟩
        rintro ⟨k, col⟩ hp
        exact (c2 k col hp).length_eq.symm.trans hlen
  obtain ⟨nodes, a1, a2, a3, a4, a5, a6⟩ := hinput
  have hN : (loadedGraph nodes).nodes = nodes.map Prod.fst := (nodesOnly_facts _ a5).1
  rw [hN] at a3
  refine ⟨nodes, a3, ?_⟩
  intro env hav hj o name hpipe halg hname fuel hf
  rw [← a4] at hname hf
  exact C127_file_to_file M hM env hav o name hpipe halg j hj nodes a1 (by rintro rfl; exact hne (List.length_eq_zero_iff.1 a4.symm))
    a2 hname (linearData_generated htop a3 hg a6) (fun v hv => hm v (a3.mem_iff.1 hv)) q hqΦ (visible_perm a3 (hv _ a6))
    (by rw [a4]; exact hn) fuel hf

/-! ## example -/

/-- significance level 62% (critical value 1/2) -/
noncomputable def exMachine : Machine ℕ where
  Φ := normalCdf
  Q := fun _ _ => 0
  solve := fun _ _ _ _ _ => 0
  lstsq := effectSolver_exists.choose
  threshold := levelOf (1 / 2)
  ord := exNbOrd
  choice := exParChoice
  oc := fun _ _ _ l => l.dedup
  o := ⟨fun _ _ _ l => l.dedup, fun _ _ _ l => l.dedup, fun _ _ _ l => l.dedup⟩

theorem exMachine_valid : exMachine.Valid where
  normal := normalCdf_normalLike
  solver := effectSolver_exists.choose_spec
  ord := exNbOrd_valid
  choice := exParChoice_valid
  oc := fun _ _ _ l => ⟨l.nodup_dedup, fun _ => List.mem_dedup⟩
  o := ⟨fun _ _ _ l => ⟨l.nodup_dedup, fun _ => List.mem_dedup⟩, fun _ _ _ l => ⟨l.nodup_dedup, fun _ => List.mem_dedup⟩,
    fun _ _ _ l => ⟨l.nodup_dedup, fun _ => List.mem_dedup⟩⟩
  threshold := (levelOf_lt (by norm_num)).2

/-- the columns in the file: data of `0 → 2 ← 1` -/
noncomputable def exColumns : Nodes ℕ ℝ :=
  [0, 1, 2].map fun v => (v, List.ofFn fun i => (exLinTable v i : ℝ))

/-- `causy execute --algorithm` on a file with these columns: both algorithms succeed, and every possible result lists the edge
from 0 to 2, not the one back, and gives it the coefficient 1 -/
theorem exColumns_execute (name : String) (hname : name = "PC" ∨ name = "ParallelPC") :
    ∃ (env : Env ℕ ℝ (Info ℕ (Option ℝ))) (o : Options), (∃ r, Executes {} 11 env o (.ok r)) ∧
    ∀ out, Executes {} 11 env o out → ∃ r, out = .ok r ∧ ∃ e ∈ r.edges, e.u = 0 ∧ e.v = 2 ∧ ¬ Lists r 2 0 ∧
      e.metadata.effect = some (some 1) ∧ r.saved = some "out.json" := by
  let d : Dict ℕ (List ℝ) := ⟨exColumns, by simp [exColumns]⟩
  let env : Env ℕ ℝ (Info ℕ (Option ℝ)) := ⟨fun _ => .error .fileNotFound, exMachine.available, .ok (.dict d)⟩
  let o : Options := ⟨none, some name, some "out.json"⟩
  have hfst : exColumns.map Prod.fst = [0, 1, 2] := by simp [exColumns]
  have hval : ∀ v ∈ [0, 1, 2], nodeValues (n := 8) exColumns v = fun i => (exLinTable v i : ℝ) := by
    intro v hv
    funext i
    simp only [List.mem_cons, List.not_mem_nil, or_false] at hv
    rcases hv with rfl | rfl | rfl <;> fin_cases i <;> simp [nodeValues, exColumns, assoc]
  have htop : TopologicalOrder exLinEdges [0, 1, 2] := by
    refine ⟨by decide, exLin_data.vars, fun a b h => ?_⟩
    rw [exLin_edge] at h
    simp only [List.mem_cons, Prod.mk.injEq, List.not_mem_nil, or_false] at h
    rcases h with ⟨rfl, rfl⟩ | ⟨rfl, rfl⟩ <;> decide
  have hdata : LinearData exLinEdges (fun v i => (exSigns v i : ℝ)) (nodeValues (n := 8) exColumns) (exColumns.map Prod.fst) := by
    rw [hfst]
    refine ⟨exLin_data.acyclic, exLin_data.vars, ?_, exLin_data.uncorrelated, exLin_data.varies⟩
    intro v hm i
    rw [hval v ((exLin_data.vars v).2 hm)]
    refine (exLin_data.equations v hm i).trans ?_
    have : ∀ e ∈ exLinEdges, nodeValues (n := 8) exColumns e.src = fun i => (exLinTable e.src i : ℝ) :=
      fun e he => hval _ ((exLin_data.vars _).2 ⟨e, he, .inl rfl⟩)
    simp only [exLinEdges, List.mem_cons, List.not_mem_nil, or_false, forall_eq_or_imp, forall_eq] at this
    simp only [exLinEdges, List.filter_cons, List.filter_nil]
    split <;> simp [this.1, this.2]
  have hholds : Holds (.dict d) exColumns := .columns d _ (by rw [hfst]; decide) (fun k col => Dict.mem_items_iff d k col)
  have key := C127_file_to_file (n := 8) (noise := fun v i => (exSigns v i : ℝ)) exMachine exMachine_valid env rfl o name (.inl rfl) rfl
    (.dict d) rfl exColumns hholds (by simp [exColumns]) (by simp [exColumns]) (hname.imp_right (fun h => ⟨h, by simp [exColumns]⟩))
    hdata (by
      rw [hfst]
      intro v hv
      unfold MeanZero
      rw [← Int.cast_sum, Int.cast_eq_zero]
      revert v
      decide) (1 / 2) (levelOf_eq _) (by
      rw [hfst]
      refine visible_congr hval ?_
      intro x y S hq hs r hr
      exact le_trans (by norm_num) (exLin_visible x y S hq hs r hr)) (by simp [exColumns]) 11 (by simp [exColumns])
  refine ⟨env, o, key.1, fun out hout => ?_⟩
  obtain ⟨r, h1, h2, h3⟩ := key.2 out hout
  have harr : ∀ a, a = 0 ∨ a = 1 → Lists r a 2 ∧ ¬ Lists r 2 a := by
    intro a ha
    rw [h2.arrows]
    intro E' _ he
    have := (he.2 0 2 1).1 ⟨⟨by rw [exLin_edge]; decide, by rw [exLin_edge]; decide⟩, by decide, by
      simp only [Dag.Adj, exLin_edge]; decide⟩
    rcases ha with rfl | rfl
    · exact this.1.1
    · exact this.1.2
  obtain ⟨⟨e, he, hu, hv⟩, hno⟩ := harr 0 (.inl rfl)
  have hw : weight exLinEdges 0 2 = 1 := by simp [weight, exLinEdges]
  refine ⟨r, h1, e, he, hu, hv, hno, ?_, (h3.file _).2 ⟨rfl, by decide⟩⟩
  rw [← hw, ← hu, ← hv]
  refine h2.effects e he (by rw [hu, hv]; exact hno) ?_
  intro c hc
  rw [hv] at hc
  have hadj := (h2.adjacent c 2).1 (.inl hc.1)
  have : c = 0 ∨ c = 1 := by
    simp only [Dag.Adj, exLin_edge, List.mem_cons, Prod.mk.injEq, List.not_mem_nil, or_false] at hadj
    omega
  exact (harr c this).2 hc.2

end Verif
