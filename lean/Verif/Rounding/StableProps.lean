import Verif.Rounding.Props
import Verif.PC.StableCpdag
import Verif.Fci.Props

/-!
# PCStable and the FCI collider rule on data, with rounding errors (C133)
-/

namespace Verif
open Graph CI PC Orient Linear Sample Rounding
variable {ι : Type} [DecidableEq ι] {n : ℕ}

theorem partialStep_reg {ρ : Type} (T : Tests ι ρ) (r : List ι → Except PyErr Bool) :
    CI.partialStep { T with reg := r } = CI.partialStep T := by
  unfold CI.partialStep CI.partialProcess
  simp only [partialLoop_reg]

/-- the skeleton phases do not use the regression test -/
theorem reg_unused_skeletons {ρ : Type} (T : Tests ι ρ) (r : List ι → Except PyErr Bool) (ord : NbOrd ι) :
    stableSkeleton { T with reg := r } ord = stableSkeleton T ord ∧ pcSkeleton { T with reg := r } ord = pcSkeleton T ord ∧
    classicSkeleton { T with reg := r } ord = classicSkeleton T ord := by
  refine ⟨?_, ?_, rfl⟩
  · unfold stableSkeleton stableTests
    rw [partialStep_reg]
    rfl
  · unfold pcSkeleton
    rw [partialStep_reg]
    rfl

/-- **C133.** On data from linear equations with rounding errors, under the conditions of C128: there is a number `δ` such that
with every arithmetic of precision better than `δ`, on all data within `δ` of the ideal data,

* the test phase of `PCStable` does not raise and finds exactly the adjacencies of the DAG;
* `PCStable` with `PartialCorrelationTest` once more before the orientation does not raise, keeps these adjacencies and directs
  exactly the compelled edges;
* the tests of `PC` or `PCClassic` followed by the FCI collider rule do not raise, and an edge from `a` to `b` ends with the
  mark of the rule exactly if the DAG has an unshielded collider `a → b ← c`. -/
theorem C133_stable_and_fci {edges : List (SEdge ι ℝ)} {noise col : ι → Fin n → ℝ} {N : List ι}
    (hd : LinearData edges noise col N) (Φ : ℝ → ℝ) (hΦ : NormalLike Φ)
    (threshold q q' : ℝ) (ht : threshold < 1) (hqΦ : Φ q = 1 - threshold / 2) (hqq : q < q')
    (hv : Visible (HasEdge edges) N q' col) (hn : N.length + 1 ≤ n) :
    ∃ δ > 0, ∀ (A : Arith) (u : ℝ), 0 < u → u < δ → A.Precise Φ u →
      ∀ col' : ι → Fin n → ℝ, (∀ v ∈ N, ∀ i, |col' v i - col v i| < δ) →
      ∀ (reg : List ι → Except PyErr Bool) (gn : CGraph ι (Option ℝ)), gn.nodes = N → Reachable gn →
      (∀ a b, gn.retrieveEdgeHistory a b .removeEdgeUndirected = []) → ∀ ord : NbOrd ι, ord.Valid →
      ∀ (fuel : Nat) (hist : List (HistRec ι (Info ι (Option ℝ)))),
        let T := Rounding.tests A reg threshold col'
        let start : GModel ι (Info ι (Option ℝ)) := ⟨startGraph gn, hist⟩
        ((runPipeline fuel (stableSkeleton T ord) start).1 = .ok () ∧
          ∀ a b, (graphAfter fuel (stableSkeleton T ord) start).edgeExists a b = true ↔ Dag.Adj (HasEdge edges) a b) ∧
        (∀ (oc : Orient.Ord ι (Option ℝ)), oc.Valid → ∀ (o : Orient.Ords ι (Option ℝ)), o.Valid →
          N.length * N.length + 2 ≤ fuel →
          let alg := stableSkeleton T ord ++ [.plain (CI.partialStep T)] ++ orientationPhase oc o
          (runPipeline fuel alg start).1 = .ok () ∧
          (∀ a b, (graphAfter fuel alg start).edgeExists a b = true ↔ Dag.Adj (HasEdge edges) a b) ∧
          ∀ a b, (graphAfter fuel alg start).Arrow a b ↔ Dag.Compelled (HasEdge edges) a b) ∧
        (∀ (of : Orient.Ord ι (Option ℝ)), of.Valid → ∀ sk, sk = pcSkeleton T ord ∨ sk = classicSkeleton T ord →
          (runPipeline fuel (fciPipeline sk of) start).1 = .ok () ∧
          (∀ a b, (graphAfter fuel (fciPipeline sk of) start).edgeExists a b = true ↔ Dag.Adj (HasEdge edges) a b) ∧
          ∀ a b e, (graphAfter fuel (fciPipeline sk of) start).getEdge a b = .ok e →
            (e.metadata.mark = true ↔ ∃ c, Dag.VStructure (HasEdge edges) a b c)) := by
  obtain ⟨δ, hδ, h1⟩ := oracle_near hd hΦ ht hqΦ hqq hv hn
  refine ⟨δ, hδ, ?_⟩
  intro A u hu hu' hA col' hc reg gn hgN hgn hfresh ord hord fuel hist T start
  have hO := h1 A u hu hu' hA col' hc reg
  rw [← hgN] at hO
  obtain ⟨r1, r2, r3⟩ := reg_unused_skeletons T (withoutRegression T (HasEdge edges)).reg ord
  have r1' : stableSkeleton (withoutRegression T (HasEdge edges)) ord = stableSkeleton T ord := r1
  have r4 : CI.partialStep (withoutRegression T (HasEdge edges)) = CI.partialStep T := partialStep_reg T _
  refine ⟨?_, ?_, ?_⟩
  · have := C87_stable_recovers _ _ gn hgn hO ord hord fuel hist
    rw [r1'] at this
    exact this
  · intro oc hoc o ho hf alg
    have hf' : gn.nodes.length * gn.nodes.length + 2 ≤ fuel := by rw [hgN]; exact hf
    have k1 := C88_purged_orientation_partial _ _ gn hgn hfresh hO ord hord oc hoc o ho .partialCorrelation trivial trivial
      trivial fuel hist
    have k2 := C88_purged_cpdag_partial _ _ gn hgn hfresh hO ord hord oc hoc o ho .partialCorrelation trivial trivial
      trivial fuel hf' hist
    have e : stableSkeleton (withoutRegression T (HasEdge edges)) ord ++
        [.plain (CITest.partialCorrelation.step (withoutRegression T (HasEdge edges)))] ++ orientationPhase oc o = alg := by
      show stableSkeleton (withoutRegression T (HasEdge edges)) ord ++
        [.plain (CI.partialStep (withoutRegression T (HasEdge edges)))] ++ orientationPhase oc o = _
      rw [r1', r4]
    rw [← e]
    exact ⟨(k1.2.2.2 hf').1, k1.1, k2⟩
  · intro of hof sk hsk
    have hsk' : sk = pcSkeleton (withoutRegression T (HasEdge edges)) ord ∨
        sk = classicSkeleton (withoutRegression T (HasEdge edges)) ord := by
      rw [show pcSkeleton (withoutRegression T (HasEdge edges)) ord = pcSkeleton T ord from r2,
        show classicSkeleton (withoutRegression T (HasEdge edges)) ord = classicSkeleton T ord from r3]
      exact hsk
    obtain ⟨k1, k2, k3, k4⟩ := C108_arrowheads_of_dag _ _ gn hgn hfresh hO ord hord of hof sk hsk' fuel hist
    refine ⟨k1, k3, fun a b e he => ?_⟩
    refine ⟨fun hm => ?_, fun hv => by rw [(k4 a b e he).1 hv]⟩
    by_contra hno
    rw [((k4 a b e he).2 hno).2] at hm
    cases hm

/-! ## example -/

/-- C133 on `0 → 2 ← 1`, significance level 62%, in fixed point arithmetic with data rounded to a fine enough grid: the test
phase of `PCStable` finds the two adjacencies, and the FCI rule marks `0 → 2` and not `2 → 0`. -/
example : ∃ h > 0, ∀ (ord : NbOrd ℕ), ord.Valid → ∀ (of : Orient.Ord ℕ (Option ℝ)), of.Valid → ∀ fuel : ℕ,
    let T := Rounding.tests (gridArith normalCdf h) (fun _ => .ok false) (levelOf (1 / 2))
      (fun v i => onGrid h (exLinTable v i) : ℕ → Fin 8 → ℝ)
    let start : GModel ℕ (Info ℕ (Option ℝ)) := ⟨startGraph (nodesOnly [0, 1, 2]), []⟩
    (graphAfter fuel (stableSkeleton T ord) start).edgeExists 0 2 = true ∧
    (graphAfter fuel (stableSkeleton T ord) start).edgeExists 0 1 = false ∧
    (∀ e, (graphAfter fuel (fciPipeline (pcSkeleton T ord) of) start).getEdge 0 2 = .ok e → e.metadata.mark = true) ∧
    ∀ e, (graphAfter fuel (fciPipeline (pcSkeleton T ord) of) start).getEdge 2 0 = .ok e → e.metadata.mark = false := by
  obtain ⟨δ, hδ, key⟩ := C133_stable_and_fci exLin_data normalCdf normalCdf_normalLike (levelOf (1 / 2)) (1 / 2) 1
    (levelOf_lt (by norm_num)).2 (levelOf_eq _) (by norm_num) exLin_visible (by decide)
  have h2 : 0 < δ / 2 := by linarith
  refine ⟨δ / 2, h2, fun ord ho of hof fuel => ?_⟩
  have hn : (nodesOnly (δ := Info ℕ (Option ℝ)) [0, 1, 2]).nodes = [0, 1, 2] := (nodesOnly_facts [0, 1, 2] (by decide)).1
  obtain ⟨k1, -, k3⟩ := key _ (δ / 2) h2 (by linarith) (gridArith_precise normalCdf h2 le_rfl) _
    (fun v _ i => (onGrid_near h2 _).trans_lt (by linarith)) (fun _ => .ok false) (nodesOnly [0, 1, 2]) hn
    (nodesOnly_reachable _) (fun a b => nodesOnly_history _ (by decide) a b _) ord ho fuel []
  have k4 := (k3 of hof _ (Or.inl rfl)).2.2
  refine ⟨(k1.2 0 2).2 ?_, ?_, fun e he => (k4 0 2 e he).2 ⟨1, ?_⟩, fun e he => ?_⟩
  · simp only [Dag.Adj, exLin_edge]; decide
  · rw [← Bool.not_eq_true, k1.2]
    simp only [Dag.Adj, exLin_edge]; decide
  · refine ⟨⟨by rw [exLin_edge]; decide, by rw [exLin_edge]; decide⟩, by decide, ?_⟩
    simp only [Dag.Adj, exLin_edge]; decide
  · rw [← Bool.not_eq_true]
    intro hm
    obtain ⟨c, hc⟩ := (k4 2 0 e he).1 hm
    have := hc.1.1
    rw [exLin_edge] at this
    revert this
    decide

end Verif
