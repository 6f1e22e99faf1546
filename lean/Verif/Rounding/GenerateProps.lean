import Verif.Rounding.Generate
import Verif.Rounding.Props

/-!
# Properties of complete runs with rounding errors, from generating the data on (C132)
-/

namespace Verif
open Graph CI PC Linear Sample Rounding EndToEnd
variable {κ : Type} {n : ℕ}

theorem draws_near {ι : Type} [DecidableEq ι] {vars : List ι} {rand rand' : ℕ → ℝ} {δ : ℝ}
    (h : ∀ k < vars.length * n, |rand' k - rand k| < δ) :
    ∀ v ∈ vars, ∀ i : Fin n, |draws n rand' vars v i - draws n rand vars v i| < δ := by
  intro w hw j
  refine h _ ?_
  have h1 := List.idxOf_lt_length_iff.2 hw
  have h2 := j.isLt
  calc vars.idxOf w * n + j < vars.idxOf w * n + n := by omega
    _ = (vars.idxOf w + 1) * n := by ring
    _ ≤ vars.length * n := Nat.mul_le_mul_right _ h1

/-- **C132, the data.** With rounding errors `IIDSampleGenerator` still does not raise and returns the same graph, and the
data come as close to the exact ones as wanted: for every `η` there is a `δ` such that with every arithmetic of precision
better than `δ`, on draws within `δ` of the ideal ones, every number differs by less than `η` from the exact solution of the
structural equations with the ideal draws. -/
theorem C132_generated_data {ι δ₀ : Type} [LinearOrder ι] (m0 : δ₀) (edges : List (SEdge ι ℝ)) (sorted : List ι → List ι)
    (hs : ∀ l, (sorted l).Perm l) (rounds : ℕ) (vars : List ι) (hvars : iidVariables sorted rounds edges = some vars)
    (rand : ℕ → ℝ) (Φ : ℝ → ℝ) (col : ι → Fin n → ℝ) (hcol : Structural edges (draws n rand vars) col) (η : ℝ) (hη : 0 < η) :
    ∃ δ > 0, ∀ (A : Arith) (u : ℝ), 0 < u → u < δ → A.Precise Φ u →
      ∀ rand' : ℕ → ℝ, (∀ k < vars.length * n, |rand' k - rand k| < δ) →
      ∃ out sample, generate A m0 n rand' edges vars = .ok (out, sample) ∧
        (∀ a b, sample.directedEdgeExists a b = true ↔ HasEdge edges a b) ∧
        out.keys = vars ∧ ∀ v ∈ vars, ∃ c, out.get? v = some c ∧ ∀ i, |c i - col v i| < η := by
  have htop := topological_of_variables hs hvars
  obtain ⟨δ, hδ, key⟩ := columns_delta (Φ := Φ) htop hcol hη
  refine ⟨δ, hδ, fun A u hu hu' hA rand' hr => ?_⟩
  obtain ⟨out, sample, col', h1, h2, h3, h4, h5⟩ := generate_ok (n := n) A m0 htop rand'
  exact ⟨out, sample, h1, h2, h3, fun v hv => ⟨col' v, h4 v hv, key A u hu hu' hA _ col' (draws_near hr) h5 v hv⟩⟩

/-- **C132.** Generating, loading and learning, all with rounding errors: let the edges be accepted by `IIDSampleGenerator`, let
there be ideal draws that average to zero and are uncorrelated in the sample, let all dependences be visible with a margin and
let there be more samples than variables.  Then for every `ε` there is a `δ` such that with every arithmetic of precision
better than `δ`, every least squares solver that is right up to rounding, and all draws within `δ` of the ideal ones: the
generator does not raise; its data can be loaded, as the dictionary of columns or as the list of rows; and the complete `PC`,
`PCClassic` and `ParallelPC` do not raise, return the adjacencies and the compelled edges of the graph that the user gave to
the generator, and the direct effects on arrows into variables without undirected edges differ by less than `ε` from the
coefficients that the user gave to the generator. -/
theorem C132_generate_and_recover [LinearOrder κ] {δ₀ : Type} (m0 : δ₀) (edges : List (SEdge κ ℝ)) (sorted : List κ → List κ)
    (hs : ∀ l, (sorted l).Perm l) (rounds : ℕ) (vars : List κ) (hvars : iidVariables sorted rounds edges = some vars)
    (rand : ℕ → ℝ) (hg : GoodDraws n rand vars) (hm : ∀ v ∈ vars, MeanZero (draws n rand vars v))
    (Φ : ℝ → ℝ) (hΦ : NormalLike Φ) (threshold q q' : ℝ) (ht : threshold < 1) (hqΦ : Φ q = 1 - threshold / 2) (hqq : q < q')
    (hv : AllVisible edges n rand vars q') (hn : vars.length + 1 ≤ n) (ε : ℝ) (hε : 0 < ε) :
    ∃ δ > 0, ∀ (A : Arith) (u : ℝ), 0 < u → u < δ → A.Precise Φ u →
      ∀ rand' : ℕ → ℝ, (∀ k < vars.length * n, |rand' k - rand k| < δ) →
      ∃ out sample, generate A m0 n rand' edges vars = .ok (out, sample) ∧
        ∀ input, input = Data.Input.dict (columnLists out) ∨ input = .list (shapedData out) →
        ∃ nodes, Data.createGraph input = .ok nodes ∧
          ∀ (reg : List κ → Except PyErr Bool) (lstsq : List (List (Option ℝ)) → List (Option ℝ) → List (Option ℝ)),
          LeastSquaresUpTo u lstsq →
          ∀ (oc : Orient.Ord κ (Option ℝ)), oc.Valid → ∀ (o : Orient.Ords κ (Option ℝ)), o.Valid →
          ∀ fuel : ℕ, nodes.length * nodes.length + 2 ≤ fuel → ∀ hist : List (HistRec κ (Info κ (Option ℝ))),
            let T := Rounding.tests A reg threshold (nodeValues (n := n) nodes)
            let D : Effects.Source κ (Option ℝ) := ⟨fun v => some (List.ofFn fun i : Fin n => some (nodeValues nodes v i)), lstsq⟩
            let start : GModel κ (Info κ (Option ℝ)) := ⟨startGraph (loadedGraph nodes), hist⟩
            (∀ ord : NbOrd κ, ord.Valid → ∀ alg, alg = pc T ord oc o ∨ alg = pcClassic T ord oc o →
              let full := alg ++ [.plain (Effects.effectStep D)]
              (runPipeline fuel full start).1 = .ok () ∧ LearnedUpTo ε edges (graphAfter fuel full start)) ∧
            (∀ z : Sizes, z.triples ≠ 0 ∧ z.sampled ≠ 0 ∧ z.extended ≠ 0 → nodes.length.choose 3 ≤ z.triples →
              ∀ c : ParChoice κ, c.Valid → ∀ res, Stages.Run fuel
                (parallelPC T z c oc o ++ [.seq (.plain (Effects.effectStep D))]) start res →
              res.1 = .ok () ∧ LearnedUpTo ε edges res.2.graph) := by
  have htop := topological_of_variables hs hvars
  obtain ⟨-, col, -, -, -, g4, -⟩ := C51_structural_equations edges htop n rand
  have hd : LinearData edges (draws n rand vars) col vars := linearData_generated htop (.refl _) hg g4
  obtain ⟨δ₁, hδ₁, h129⟩ := C129_rounding_effects hd hm Φ hΦ threshold q q' ht hqΦ hqq (hv col g4) hn ε hε
  obtain ⟨δ₂, hδ₂, hcols⟩ := columns_delta (Φ := Φ) htop g4 hδ₁
  refine ⟨min δ₁ δ₂, lt_min hδ₁ hδ₂, fun A u hu hu' hA rand' hr => ?_⟩
  obtain ⟨out, sample, col', h1, h2, h3, h4, h5⟩ := generate_ok (n := n) A m0 htop rand'
  refine ⟨out, sample, h1, fun input hi => ?_⟩
  obtain ⟨nodes, e1, e2, e3⟩ := load_ok out (by omega) hi
  rw [h3] at e2
  have hnd : (nodes.map Prod.fst).Nodup := e2.nodup_iff.2 htop.1
  have hp : (loadedGraph nodes : CGraph κ (Option ℝ)).nodes.Perm vars := by
    unfold loadedGraph
    rw [(nodesOnly_facts _ hnd).1]
    exact e2
  have hl : nodes.length = vars.length := by simpa using e2.length_eq
  refine ⟨nodes, e1, fun reg lstsq hls oc hoc o ho fuel hf hist => ?_⟩
  have hclose : ∀ v ∈ vars, ∀ i, |nodeValues (n := n) nodes v i - col v i| < δ₁ := by
    intro v hv' i
    rw [e3 v _ (h4 v hv')]
    exact hcols A u hu (hu'.trans_le (min_le_right _ _)) hA _ col'
      (draws_near fun k hk => (hr k hk).trans_le (min_le_right _ _)) h5 v hv' i
  rw [hl] at hf ⊢
  exact h129 A u hu (hu'.trans_le (min_le_left _ _)) hA _ hclose reg (loadedGraph nodes) hp (Effects.nodesOnly_clean _)
    (fun a b => nodesOnly_history _ hnd a b _) _ (fun _ _ => rfl) hls oc hoc o ho fuel hf hist

/-! ## examples -/

/-- the hypotheses of C132 on `0 → 2 ← 1` with the draws `exDraws` -/
theorem exDraws_mean : ∀ v ∈ [0, 1, 2], MeanZero (draws 8 (fun k => (exDraws k : ℝ)) [0, 1, 2] v) := by
  intro v hv
  have : draws 8 (fun k => (exDraws k : ℝ)) [0, 1, 2] v = fun i => (exSigns v i : ℝ) := by
    funext i
    exact congrArg Int.cast (exDraws_eq v hv i)
  rw [this]
  unfold MeanZero
  rw [← Int.cast_sum, Int.cast_eq_zero]
  clear this
  revert v
  decide

/-- C132 on that example: in fixed point arithmetic with a fine enough grid and with draws rounded to that grid, the generator
returns, its columns can be loaded, and the complete `PC` finds the graph and the coefficients up to a tenth. -/
example : ∃ h > 0, ∃ l, ∃ out sample,
    generate (gridArith normalCdf h) () 8 (fun k => onGrid h (exDraws k)) exLinEdges [0, 1, 2] = .ok (out, sample) ∧
    ∃ nodes, Data.createGraph (.dict (columnLists out)) = .ok nodes ∧
    ∀ (ord : NbOrd ℕ), ord.Valid → ∀ (oc : Orient.Ord ℕ (Option ℝ)), oc.Valid → ∀ (o : Orient.Ords ℕ (Option ℝ)), o.Valid →
    ∀ fuel, nodes.length * nodes.length + 2 ≤ fuel →
    let D : Effects.Source ℕ (Option ℝ) := ⟨fun v => some (List.ofFn fun i : Fin 8 => some (nodeValues nodes v i)), l⟩
    LearnedUpTo (1 / 10) exLinEdges (graphAfter fuel (pc (Rounding.tests (gridArith normalCdf h) (fun _ => .ok false)
      (levelOf (1 / 2)) (nodeValues (n := 8) nodes)) ord oc o ++ [.plain (Effects.effectStep D)])
      ⟨startGraph (loadedGraph nodes), []⟩) := by
  obtain ⟨s1, s2, s3, s4, s5, s6, s7, s8⟩ := exDraws_suitable
  obtain ⟨δ, hδ, key⟩ := C132_generate_and_recover () exLinEdges _ s2 3 _ s1 _ s3 exDraws_mean normalCdf s4 (levelOf (1 / 2))
    (1 / 2) 1 s5 s6 (by norm_num) s7 s8 (1 / 10) (by norm_num)
  have h2 : 0 < δ / 2 := by linarith
  obtain ⟨l, hl⟩ := gridSolver_exists h2 le_rfl
  obtain ⟨out, sample, k1, k2⟩ := key _ (δ / 2) h2 (by linarith) (gridArith_precise normalCdf h2 le_rfl)
    (fun k => onGrid (δ / 2) (exDraws k)) (fun k _ => (onGrid_near h2 _).trans_lt (by linarith))
  obtain ⟨nodes, m1, m2⟩ := k2 _ (Or.inl rfl)
  exact ⟨δ / 2, h2, l, out, sample, k1, nodes, m1, fun ord ho oc hoc o ho' fuel hf =>
    ((m2 (fun _ => .ok false) l hl oc hoc o ho' fuel hf []).1 ord ho _ (Or.inl rfl)).2⟩

end Verif
