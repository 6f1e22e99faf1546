import Verif.EndToEnd.Spec
import Verif.EndToEnd.Lemmas

/-!
# Properties of complete runs: generate data, load them, run the algorithm (C110, C111)
-/

namespace Verif
open Sample Data CI PC Graph Linear EndToEnd Stats
variable {ι : Type} [LinearOrder ι] {n : ℕ}

theorem topological_of_variables {edges : List (SEdge ι ℝ)} {sorted : List ι → List ι} (hs : ∀ l, (sorted l).Perm l) {fuel : ℕ}
    {vars : List ι} (h : iidVariables sorted fuel edges = some vars) : TopologicalOrder edges vars := by
  by_cases hac : Dag.Acyclic (HasEdge edges)
  · obtain ⟨l, hl, hall⟩ := C50_topological_order edges hac sorted hs
    have hp := hs (variableSet edges)
    obtain ⟨h1, h2⟩ := topologicSort_sound h (fun l1 x l2 e => by simp at e)
    rw [List.nil_append] at h1
    have hperm := h1.trans hp
    have hm : ∀ x, x ∈ vars ↔ Mentioned edges x := fun x => by rw [hperm.mem_iff, mem_variableSet]
    have hn : vars.Nodup := hperm.nodup_iff.2 (List.nodup_dedup _)
    exact ⟨hn, hm, fun a b hab => prefixClosed_idx hn h2 ((hm b).2 (mentioned_dst hab)) hab⟩
  · rw [C50_cycle_never_returns edges hac sorted hs fuel] at h
    cases h

/-- what the generated and loaded data have in common with the solution of the equations -/
theorem generated_columns {δ : Type} (m0 : δ) {edges : List (SEdge ι ℝ)} {vars : List ι} (hv : TopologicalOrder edges vars)
    (rand : ℕ → ℝ) (hn : n ≠ 0) :
    ∃ out sample, iidGenerate m0 n rand edges vars = .ok (out, sample) ∧
      (∀ a b, sample.directedEdgeExists a b = true ↔ HasEdge edges a b) ∧
      ∀ input, input = Data.Input.dict (columnLists out) ∨ input = .list (shapedData out) →
        ∃ nodes, createGraph input = .ok nodes ∧ (loadedGraph nodes).nodes.Perm vars ∧
          nodes.length = vars.length ∧ (nodes.map Prod.fst).Nodup ∧
          Structural edges (draws n rand vars) (nodeValues nodes) := by
  obtain ⟨out, sample, h1, h2, h3, h4, h5⟩ := C51_graph (size := n) m0 edges hv rand
  obtain ⟨out', col, g1, g2, g3, g4, g5⟩ := C51_structural_equations edges hv n rand
  obtain rfl : out = out' := by
    rw [h2] at g1
    cases g1
    rfl
  refine ⟨out, sample, h1, h4, fun input hi => ?_⟩
  obtain ⟨nodes, e1, e2, e3⟩ := load_ok out hn hi
  rw [g2] at e2
  have hnd : (nodes.map Prod.fst).Nodup := e2.nodup_iff.2 hv.1
  have hcol : ∀ v ∈ vars, nodeValues (n := n) nodes v = col v := fun v hm => e3 v _ (g3 v hm)
  refine ⟨nodes, e1, ?_, by simpa using e2.length_eq, hnd, ?_⟩
  · unfold loadedGraph
    rw [(nodesOnly_facts _ hnd).1]
    exact e2
  · intro v hm i
    rw [hcol v ((hv.2.1 v).2 hm), g4 v hm i]
    have : ∀ (l : List (SEdge ι ℝ)) (a : ℝ), (∀ e ∈ l, e ∈ edges) →
        l.foldl (fun acc e => acc + e.value * col e.src i) a =
          l.foldl (fun acc e => acc + e.value * nodeValues (n := n) nodes e.src i) a := by
      intro l
      induction l with
      | nil => intros; rfl
      | cons e l ih =>
        intro a hl
        rw [List.foldl_cons, List.foldl_cons, ih _ (fun e' he' => hl e' (List.mem_cons_of_mem _ he')),
          hcol e.src ((hv.2.1 _).2 ⟨e, hl e List.mem_cons_self, Or.inl rfl⟩)]
    exact this _ _ (fun e he => (List.mem_filter.1 he).1)

theorem visible_perm {E : ι → ι → Prop} {N N' : List ι} (h : N.Perm N') {q : ℝ} {col : ι → Fin n → ℝ}
    (hv : Visible E N' q col) : Visible E N q col :=
  fun x y S hq => hv x y S ⟨hq.1, fun z hz => h.mem_iff.1 (hq.2 z hz)⟩

theorem linearData_generated {edges : List (SEdge ι ℝ)} {vars N : List ι} (hv : TopologicalOrder edges vars)
    (hp : N.Perm vars) {rand : ℕ → ℝ} (hg : GoodDraws n rand vars) {col : ι → Fin n → ℝ}
    (hst : Structural edges (draws n rand vars) col) : LinearData edges (draws n rand vars) col N where
  acyclic := hv.acyclic
  vars := fun v => hp.mem_iff.trans (hv.2.1 v)
  equations := hst
  uncorrelated := fun v hv w hw => hg.1 v (hp.mem_iff.1 hv) w (hp.mem_iff.1 hw)
  varies := fun v hv => hg.2 v (hp.mem_iff.1 hv)

/-- **C110.** Generate and recover: if `IIDSampleGenerator` accepts the edges and draws noise that is uncorrelated in the
sample, with more samples than variables and no dependence hidden from the tests at the configured threshold, then
generating the data, loading them (as the dictionary of columns or as the list of rows) and running `PC` or `PCClassic`
succeeds, and the result has exactly the adjacencies of the sample graph that the generator returned along with the data; its
arrows are exactly the compelled edges of the sample graph. -/
theorem C110_generate_and_recover {δ : Type} (m0 : δ) (edges : List (SEdge ι ℝ)) (sorted : List ι → List ι)
    (hs : ∀ l, (sorted l).Perm l) (fuel : ℕ) (vars : List ι) (hvars : iidVariables sorted fuel edges = some vars)
    (rand : ℕ → ℝ) (hg : GoodDraws n rand vars) (Φ : ℝ → ℝ) (hΦ : NormalLike Φ) (threshold q : ℝ) (ht : threshold < 1)
    (hqΦ : Φ q = 1 - threshold / 2) (hv : AllVisible edges n rand vars q) (hn : vars.length + 1 ≤ n) :
    ∃ out sample, iidGenerate m0 n rand edges vars = .ok (out, sample) ∧
      ∀ input, input = Data.Input.dict (columnLists out) ∨ input = .list (shapedData out) →
        ∃ nodes, createGraph input = .ok nodes ∧ Recovers Φ threshold n nodes sample := by
  have htop := topological_of_variables hs hvars
  obtain ⟨out, sample, h1, h2, h3⟩ := generated_columns (n := n) m0 htop rand (by omega)
  refine ⟨out, sample, h1, fun input hi => ?_⟩
  obtain ⟨nodes, e1, e2, e3, e4, e5⟩ := h3 input hi
  refine ⟨nodes, e1, ?_⟩
  intro Q solve ord ho oc hoc o ho' alg halg fuel hf hist
  have hd := linearData_generated htop e2 hg e5
  have hl : (loadedGraph nodes).nodes.length = nodes.length := by rw [e2.length_eq, e3]
  have key := C103_pc_recovers_cpdag (loadedGraph nodes) hd Φ hΦ Q solve threshold q ht hqΦ (visible_perm e2 (hv _ e5))
    (by rw [hl, e3]; exact hn) (nodesOnly_reachable _) (fun a b => nodesOnly_history _ e4 a b _) ord ho oc hoc o ho' alg halg fuel
    (by rw [hl]; exact hf) hist
  have hE : (fun a b => sample.directedEdgeExists a b = true) = HasEdge edges := by
    funext a b
    exact propext (h2 a b)
  intro g
  rw [hE]
  refine ⟨key.1, fun a b => ?_, key.2.2⟩
  rw [h2, h2]
  exact key.2.1 a b

/-- **C111.** The same for draws that are only nearly uncorrelated: if the statistics of all dependences exceed the critical
value by a margin, there is a distance such that every sequence of draws within it of the ideal one leads to the same
result. -/
theorem C111_robust_in_the_draws {δ : Type} (m0 : δ) (edges : List (SEdge ι ℝ)) (sorted : List ι → List ι)
    (hs : ∀ l, (sorted l).Perm l) (fuel : ℕ) (vars : List ι) (hvars : iidVariables sorted fuel edges = some vars)
    (rand : ℕ → ℝ) (hg : GoodDraws n rand vars) (Φ : ℝ → ℝ) (hΦ : NormalLike Φ) (threshold q q' : ℝ) (ht : threshold < 1)
    (hqΦ : Φ q = 1 - threshold / 2) (hqq : q < q') (hv : AllVisible edges n rand vars q') (hn : vars.length + 1 ≤ n) :
    ∃ ε > 0, ∀ rand' : ℕ → ℝ, (∀ k < vars.length * n, |rand' k - rand k| < ε) →
      ∃ out sample, iidGenerate m0 n rand' edges vars = .ok (out, sample) ∧
        ∀ input, input = Data.Input.dict (columnLists out) ∨ input = .list (shapedData out) →
          ∃ nodes, createGraph input = .ok nodes ∧ Recovers Φ threshold n nodes sample := by
  have htop := topological_of_variables hs hvars
  obtain ⟨-, col, -, -, -, g4, -⟩ := C51_structural_equations edges htop n rand
  have hd : LinearData edges (draws n rand vars) col vars := linearData_generated htop (.refl _) hg g4
  obtain ⟨C, hC, hbound⟩ := structural_bound (n := n) htop
  obtain ⟨η, hη, hrob⟩ := C104_robust hd Φ hΦ threshold q q' ht hqΦ hqq (hv col g4) hn
  refine ⟨η / (2 * C), by positivity, fun rand' hr => ?_⟩
  obtain ⟨out, sample, h1, h2, h3⟩ := generated_columns (n := n) m0 htop rand' (by omega)
  refine ⟨out, sample, h1, fun input hi => ?_⟩
  obtain ⟨nodes, e1, e2, e3, e4, e5⟩ := h3 input hi
  refine ⟨nodes, e1, ?_⟩
  intro Q solve ord ho oc hoc o ho' alg halg fuel hf hist
  have hclose : ∀ v ∈ vars, ∀ i, |nodeValues (n := n) nodes v i - col v i| < η := by
    intro v hv' i
    have := hbound (draws n rand vars) (draws n rand' vars) col (nodeValues nodes) (η / (2 * C)) g4 e5 (by
      intro w hw j
      refine (hr _ ?_).le
      have h1 := List.idxOf_lt_length_iff.2 hw
      have h2 := j.isLt
      calc vars.idxOf w * n + j < vars.idxOf w * n + n := by omega
        _ = (vars.idxOf w + 1) * n := by ring
        _ ≤ vars.length * n := Nat.mul_le_mul_right _ h1) v hv' i
    refine this.trans_lt ?_
    rw [show C * (η / (2 * C)) = η / 2 by field_simp]
    linarith
  have hl : (loadedGraph nodes).nodes.length = nodes.length := by rw [e2.length_eq, e3]
  have key := hrob (nodeValues nodes) hclose Q solve (loadedGraph nodes) e2 (nodesOnly_reachable _)
    (fun a b => nodesOnly_history _ e4 a b _) ord ho oc hoc o ho' alg halg fuel (by rw [← e3]; exact hf) hist
  have hE : (fun a b => sample.directedEdgeExists a b = true) = HasEdge edges := by
    funext a b
    exact propext (h2 a b)
  intro g
  rw [hE]
  refine ⟨key.1, fun a b => ?_, key.2.2⟩
  rw [h2, h2]
  exact key.2.1 a b

/-! ## examples -/

theorem visible_congr {E : ι → ι → Prop} {N : List ι} {q : ℝ} {col col' : ι → Fin n → ℝ} (h : ∀ v ∈ N, col v = col' v)
    (hv : Visible E N q col') : Visible E N q col := by
  intro x y S hq hs r hr
  refine hv x y S hq hs r ?_
  have hx := h x (hq.2 x (by simp))
  have hy := h y (hq.2 y (by simp))
  have hS : (fun s : Fin S.length => col (S.get s)) = fun s => col' (S.get s) := by
    funext s
    exact h _ (hq.2 _ (by simp))
  unfold PartialCorr at hr ⊢
  rw [hx, hy, hS] at hr
  exact hr

/-- draws for three variables and eight samples -/
def exDraws : ℕ → ℤ
  | 0 => 1 | 1 => 1 | 2 => 1 | 3 => 1 | 4 => -1 | 5 => -1 | 6 => -1 | 7 => -1
  | 8 => 1 | 9 => 1 | 10 => -1 | 11 => -1 | 12 => 1 | 13 => 1 | 14 => -1 | 15 => -1
  | 16 => 1 | 17 => -1 | 18 => 1 | 19 => -1 | 20 => 1 | 21 => -1 | 22 => 1 | 23 => -1
  | _ => 0

theorem exDraws_eq : ∀ v ∈ [0, 1, 2], ∀ i : Fin 8, exDraws ([0, 1, 2].idxOf v * 8 + i) = exSigns v i := by
  decide +kernel

/-- hypotheses of C110 and C111: significance level 62% (critical value 1/2), all statistics at least 1 -/
theorem exDraws_suitable : iidVariables (List.insertionSort (· ≤ ·)) 3 exLinEdges = some [0, 1, 2] ∧
    (∀ l : List ℕ, (l.insertionSort (· ≤ ·)).Perm l) ∧
    GoodDraws 8 (fun k => (exDraws k : ℝ)) [0, 1, 2] ∧ NormalLike normalCdf ∧ levelOf (1 / 2) < 1 ∧
    normalCdf (1 / 2) = 1 - levelOf (1 / 2) / 2 ∧ AllVisible exLinEdges 8 (fun k => (exDraws k : ℝ)) [0, 1, 2] 1 ∧
    [0, 1, 2].length + 1 ≤ 8 := by
  have hdraw : ∀ v ∈ [0, 1, 2], draws 8 (fun k => (exDraws k : ℝ)) [0, 1, 2] v = fun i => (exSigns v i : ℝ) := by
    intro v hv
    funext i
    exact congrArg Int.cast (exDraws_eq v hv i)
  have htop : TopologicalOrder exLinEdges [0, 1, 2] := by
    refine ⟨by decide, exLin_data.vars, fun a b h => ?_⟩
    rw [exLin_edge] at h
    simp only [List.mem_cons, Prod.mk.injEq, List.not_mem_nil, or_false] at h
    rcases h with ⟨rfl, rfl⟩ | ⟨rfl, rfl⟩ <;> decide
  refine ⟨rfl, fun l => List.perm_insertionSort _ _, ⟨?_, ?_⟩, normalCdf_normalLike,
    (levelOf_lt (by norm_num)).2, levelOf_eq _, ?_, by decide⟩
  · intro v hv w hw hne
    rw [hdraw v hv, hdraw w hw]
    exact exLin_data.uncorrelated v hv w hw hne
  · intro v hv
    rw [hdraw v hv]
    exact exLin_data.varies v hv
  · intro col hcol
    refine visible_congr (fun v hv => ?_) exLin_visible
    refine structural_unique htop (noise := fun v i => (exSigns v i : ℝ)) ?_ exLin_data.equations v ((htop.2.1 v).1 hv)
    intro v hm i
    rw [hcol v hm i, hdraw v ((htop.2.1 v).2 hm)]

end Verif
