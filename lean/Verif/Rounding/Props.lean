import Verif.Rounding.Oracle
import Verif.Rounding.Fits

/-!
# Properties of the algorithms with rounding errors (C128, C129)

The tests are those of the code, operation by operation, in an arbitrary arithmetic of some precision.
-/

namespace Verif
open Graph CI PC Linear Sample Rounding
variable {ι : Type} [DecidableEq ι] {n : ℕ}

theorem oracle_near {edges : List (SEdge ι ℝ)} {noise col : ι → Fin n → ℝ} {N : List ι} (hd : LinearData edges noise col N)
    {Φ : ℝ → ℝ} (hΦ : NormalLike Φ) {threshold q q' : ℝ} (ht : threshold < 1) (hqΦ : Φ q = 1 - threshold / 2) (hqq : q < q')
    (hv : Visible (HasEdge edges) N q' col) (hn : N.length + 1 ≤ n) :
    ∃ δ > 0, ∀ (A : Arith) (u : ℝ), 0 < u → u < δ → A.Precise Φ u → ∀ col' : ι → Fin n → ℝ,
      (∀ v ∈ N, ∀ i, |col' v i - col v i| < δ) → ∀ reg,
      Oracle (withoutRegression (Rounding.tests A reg threshold col') (HasEdge edges)) (HasEdge edges) N := by
  have hE : ∀ a b, HasEdge edges a b → a ∈ N ∧ b ∈ N :=
    fun a b h => ⟨(hd.vars a).2 (mentioned_src h), (hd.vars b).2 (mentioned_dst h)⟩
  have hR := right_of_linear hd.acyclic hd.equations hd.vars hd.uncorrelated (critical_pos hΦ ht hqΦ)
    (fun x y S hq hs r hr => hqq.le.trans (hv x y S hq hs r hr))
  refine oracle_delta hΦ.mono hqΦ hd.acyclic hE
    (structural_noRelation hd.acyclic hd.equations hd.vars hd.uncorrelated hd.varies) hn hR ?_
  intro x y S hq r hr
  by_cases hs : Dag.DSep (HasEdge edges) x y S
  · exact ((hR x y S hq r hr).2 hs).ne
  · exact (hqq.trans_le (hv x y S hq hs r hr)).ne'

theorem whole_near {E : ι → ι → Prop} {T : Tests ι (Option ℝ)} {N : List ι} (hO : Oracle (withoutRegression T E) E N)
    {gn : CGraph ι (Option ℝ)} (hp : gn.nodes.Perm N) (hgn : Reachable gn)
    (hfresh : ∀ a b, gn.retrieveEdgeHistory a b .removeEdgeUndirected = []) {oc : Orient.Ord ι (Option ℝ)} (hoc : oc.Valid)
    {o : Orient.Ords ι (Option ℝ)} (ho' : o.Valid) (fuel : ℕ) (hist : List (HistRec ι (Info ι (Option ℝ)))) :
    (∀ ord : NbOrd ι, ord.Valid → ∀ alg, alg = pc T ord oc o ∨ alg = pcClassic T ord oc o →
      Oriented E gn.nodes fuel (runPipeline fuel alg ⟨startGraph gn, hist⟩)) ∧
    (∀ z : Sizes, z.triples ≠ 0 ∧ z.sampled ≠ 0 ∧ z.extended ≠ 0 → N.length.choose 3 ≤ z.triples →
      ∀ c : ParChoice ι, c.Valid → ∀ out, Stages.Run fuel (parallelPC T z c oc o) ⟨startGraph gn, hist⟩ out →
      Oriented E gn.nodes fuel out) := by
  have hO' := hO.congr (N' := gn.nodes) (fun x => hp.mem_iff.symm)
  refine ⟨?_, ?_⟩
  · intro ord ho alg halg
    rcases halg with rfl | rfl
    · rw [← (reg_unused T _ ord oc o).1]
      exact whole_run hgn hfresh hO' ho (Or.inl rfl) hoc ho' fuel hist
    · rw [← (reg_unused T _ ord oc o).2]
      exact whole_run hgn hfresh hO' ho (Or.inr rfl) hoc ho' fuel hist
  · intro z hz hfit c hc out hrun
    rw [← reg_unused_parallel T] at hrun
    exact par_whole hgn hfresh hO' hz (by rw [hp.length_eq]; exact hfit) hc hoc ho' hrun

theorem oriented_graph {E : ι → ι → Prop} {N : List ι} {fuel : ℕ} {x : Except PyErr Unit × GModel ι (Info ι (Option ℝ))}
    (hac : Dag.Acyclic E) (hE : ∀ a b, E a b → a ∈ N ∧ b ∈ N) (hx : Oriented E N fuel x)
    (hf : N.length * N.length + 2 ≤ fuel) :
    x.1 = .ok () ∧ (∀ a b, x.2.graph.edgeExists a b = true ↔ Dag.Adj E a b) ∧
    ∀ a b, x.2.graph.Arrow a b ↔ Dag.Compelled E a b := by
  have hc := hx.closed (hx.ends hf)
  refine ⟨hx.ends hf, fun a b => ?_,
    (completed hac hE hx.sound hx.equiv (fun a b => ⟨(hc a b).1, (hc a b).2.1, (hc a b).2.2.1⟩)).1⟩
  rw [← hx.sound.adj, ← edge_iff hx.sound.wf]

theorem learned_near {edges : List (SEdge ι ℝ)} {col : ι → Fin n → ℝ} {N M : List ι} {noise : ι → Fin n → ℝ}
    (hd : LinearData edges noise col N) (hp : M.Perm N) {fuel : ℕ} {x : Except PyErr Unit × GModel ι (Info ι (Option ℝ))}
    (hx : Oriented (HasEdge edges) M fuel x) (hf : M.length * M.length + 2 ≤ fuel) {g' : CGraph ι (Option ℝ)} (hwf : WF0 g')
    {Fit : Finset ι → ι → (ι → ℝ) → Prop} (hw : Effects.WithFits some Fit x.2.graph g') {ε : ℝ}
    (hfit : ∀ b ∈ N, ∀ P : Finset ι, (∀ p, p ∈ P ↔ HasEdge edges p b) → ∀ β, Fit P b β →
      ∀ p ∈ P, |β p - weight edges p b| < ε) : LearnedUpTo ε edges g' := by
  have hE : ∀ a b, HasEdge edges a b → a ∈ M ∧ b ∈ M := fun a b h =>
    ⟨hp.mem_iff.2 ((hd.vars a).2 (mentioned_src h)), hp.mem_iff.2 ((hd.vars b).2 (mentioned_dst h))⟩
  obtain ⟨_, h2, h3⟩ := oriented_graph hd.acyclic hE hx hf
  refine ⟨fun a b => ?_, fun a b => ?_, fun a b hab hnl => ?_⟩
  · rw [← h2, edgeExists_eq hwf, edgeExists_eq hx.sound.wf, ← directedEdgeExists_eq hwf, ← directedEdgeExists_eq hwf,
      ← directedEdgeExists_eq hx.sound.wf, ← directedEdgeExists_eq hx.sound.wf, hw.edges, hw.edges]
  · rw [← h3]
    unfold Graph.Arrow
    rw [hw.edges, hw.edges]
  · have hnl' : ∀ c, ¬ x.2.graph.Line c b :=
      fun c hc => hnl c ⟨by rw [hw.edges]; exact hc.1, by rw [hw.edges]; exact hc.2⟩
    have hab' : x.2.graph.Arrow a b := ⟨by rw [← hw.edges]; exact hab.1, by rw [← hw.edges]; exact hab.2⟩
    have hinto := sound_into hd.acyclic hx.sound hnl'
    obtain ⟨m, β, _, hβ, he⟩ := hw.arrows a b hab'
    have hEab := hx.sound.arrow a b hab'
    exact ⟨_, _, he, rfl, hfit b ((hd.vars b).2 (mentioned_dst hEab)) _ hinto β hβ a ((hinto a).2 hEab)⟩

/-- all regressions of the last step give the coefficients up to `ε`, with enough precision -/
theorem effects_near {edges : List (SEdge ι ℝ)} {noise col : ι → Fin n → ℝ} {N : List ι} (hd : LinearData edges noise col N)
    (hm : ∀ v ∈ N, MeanZero (noise v)) {ε : ℝ} (hε : 0 < ε) :
    ∃ δ > 0, ∀ u, 0 < u → u < δ → ∀ col' : ι → Fin n → ℝ, (∀ v ∈ N, ∀ i, |col' v i - col v i| < δ) →
      (∑ v ∈ N.toFinset, ∑ i, |col' v i| ≤ 1 / u) ∧
      ∀ b ∈ N, ∀ P : Finset ι, (∀ p, p ∈ P ↔ HasEdge edges p b) → ∀ β, NearFit u P col' (col' b) β →
        ∀ p ∈ P, |β p - weight edges p b| < ε := by
  classical
  have one : ∀ b ∈ N, ∃ δ > 0, ∀ u, 0 < u → u < δ → ∀ col' : ι → Fin n → ℝ, (∀ v ∈ N, ∀ i, |col' v i - col v i| < δ) →
      ∀ P : Finset ι, (∀ p, p ∈ P ↔ HasEdge edges p b) → ∀ β, NearFit u P col' (col' b) β →
        ∀ p ∈ P, |β p - weight edges p b| < ε := by
    intro b hb
    let P : Finset ι := N.toFinset.filter (fun p => HasEdge edges p b)
    have hP : ∀ p, p ∈ P ↔ HasEdge edges p b := by
      intro p
      simp only [P, Finset.mem_filter, List.mem_toFinset]
      exact ⟨fun h => h.2, fun h => ⟨(hd.vars p).2 (mentioned_src h), h⟩⟩
    have hPN : ∀ p ∈ P, p ∈ N := fun p hp => (hd.vars p).2 (mentioned_src ((hP p).1 hp))
    have hw : Effects.BestFit P col (col b) (fun p => weight edges p b) := by
      refine (Effects.BestFit.shift (hd.equation hb hP)).2 ?_
      simp only [sub_self]
      exact Effects.bestFit_zero (fun p hp => hd.orthogonal hm ((hP p).1 hp))
    obtain ⟨δ, hδ, h⟩ := nearFit_delta (hd.independent hm hPN) hw hε
    refine ⟨δ, hδ, fun u h1 h2 col' hc P' hP' β hβ p hp => ?_⟩
    have e : P' = P := by ext p; rw [hP, hP']
    subst e
    exact h u h1 h2 col' (fun v hv i => hc v (by
      rcases Finset.mem_insert.1 hv with rfl | hv
      · exact hb
      · exact hPN v hv) i) β hβ p hp
  have all : ∀ L : List ι, (∀ b ∈ L, b ∈ N) → ∃ δ > 0, ∀ u, 0 < u → u < δ → ∀ col' : ι → Fin n → ℝ,
      (∀ v ∈ N, ∀ i, |col' v i - col v i| < δ) → ∀ b ∈ L,
      ∀ P : Finset ι, (∀ p, p ∈ P ↔ HasEdge edges p b) → ∀ β, NearFit u P col' (col' b) β →
        ∀ p ∈ P, |β p - weight edges p b| < ε := by
    intro L
    induction L with
    | nil => exact fun _ => ⟨1, one_pos, fun u _ _ col' _ b hb => absurd hb List.not_mem_nil⟩
    | cons b L ih =>
      intro hL
      obtain ⟨δ₁, h1, k1⟩ := ih (fun c hc => hL c (List.mem_cons_of_mem _ hc))
      obtain ⟨δ₂, h2, k2⟩ := one b (hL b List.mem_cons_self)
      refine ⟨min δ₁ δ₂, lt_min h1 h2, fun u hu hu' col' hc c hcL => ?_⟩
      have hc1 : ∀ v ∈ N, ∀ i, |col' v i - col v i| < δ₁ := fun v hv i => (hc v hv i).trans_le (min_le_left _ _)
      have hc2 : ∀ v ∈ N, ∀ i, |col' v i - col v i| < δ₂ := fun v hv i => (hc v hv i).trans_le (min_le_right _ _)
      rcases List.mem_cons.1 hcL with rfl | hcL
      · exact k2 u hu (hu'.trans_le (min_le_right _ _)) col' hc2
      · exact k1 u hu (hu'.trans_le (min_le_left _ _)) col' hc1 c hcL
  obtain ⟨δ, hδ, h⟩ := all N (fun _ h => h)
  let S : ℝ := ∑ v ∈ N.toFinset, ∑ i : Fin n, (|col v i| + 1)
  have hS : 0 ≤ S := Finset.sum_nonneg fun v _ => Finset.sum_nonneg fun i _ => by positivity
  refine ⟨min δ (min 1 (1 / (S + 1))), lt_min hδ (lt_min one_pos (by positivity)), fun u hu hu' col' hc => ⟨?_, ?_⟩⟩
  · have h1 : ∑ v ∈ N.toFinset, ∑ i, |col' v i| ≤ S := by
      refine Finset.sum_le_sum fun v hv => Finset.sum_le_sum fun i _ => ?_
      have := (hc v (List.mem_toFinset.1 hv) i).trans_le ((min_le_right _ _).trans (min_le_left _ _))
      have h2 := abs_sub_abs_le_abs_sub (col' v i) (col v i)
      linarith
    have h3 : u < 1 / (S + 1) := hu'.trans_le ((min_le_right _ _).trans (min_le_right _ _))
    rw [lt_div_iff₀ (by positivity)] at h3
    rw [le_div_iff₀ hu]
    nlinarith
  · exact h u hu (hu'.trans_le (min_le_left _ _)) col' (fun v hv i => (hc v hv i).trans_le (min_le_left _ _))

/-! ## C128 -/

/-- **C128.** The result of C103 and C104 does not need exact arithmetic.  If the statistics of all dependences exceed the
critical value by some margin, there is a number `δ` such that with every arithmetic of precision better than `δ`, on all data
within `δ` of the ideal data, `PC` and `PCClassic` do not raise and return the adjacencies of the DAG and exactly the compelled
edges; and so does `ParallelPC` in every schedule of its worker processes, if the triples of variables fit into one batch. -/
theorem C128_rounding {edges : List (SEdge ι ℝ)} {noise col : ι → Fin n → ℝ} {N : List ι}
    (hd : LinearData edges noise col N) (Φ : ℝ → ℝ) (hΦ : NormalLike Φ) (threshold q q' : ℝ) (ht : threshold < 1)
    (hqΦ : Φ q = 1 - threshold / 2) (hqq : q < q') (hv : Visible (HasEdge edges) N q' col) (hn : N.length + 1 ≤ n) :
    ∃ δ > 0, ∀ (A : Arith) (u : ℝ), 0 < u → u < δ → A.Precise Φ u →
      ∀ col' : ι → Fin n → ℝ, (∀ v ∈ N, ∀ i, |col' v i - col v i| < δ) →
      ∀ (reg : List ι → Except PyErr Bool) (gn : CGraph ι (Option ℝ)), gn.nodes.Perm N → Reachable gn →
      (∀ a b, gn.retrieveEdgeHistory a b .removeEdgeUndirected = []) →
      ∀ (oc : Orient.Ord ι (Option ℝ)), oc.Valid → ∀ (o : Orient.Ords ι (Option ℝ)), o.Valid →
      ∀ (fuel : Nat), N.length * N.length + 2 ≤ fuel → ∀ (hist : List (HistRec ι (Info ι (Option ℝ)))),
        let T := Rounding.tests A reg threshold col'
        (∀ ord : NbOrd ι, ord.Valid → ∀ alg, alg = pc T ord oc o ∨ alg = pcClassic T ord oc o →
          let g := graphAfter fuel alg ⟨startGraph gn, hist⟩
          (runPipeline fuel alg ⟨startGraph gn, hist⟩).1 = .ok () ∧
          (∀ a b, g.edgeExists a b = true ↔ Dag.Adj (HasEdge edges) a b) ∧
          ∀ a b, g.Arrow a b ↔ Dag.Compelled (HasEdge edges) a b) ∧
        (∀ z : Sizes, z.triples ≠ 0 ∧ z.sampled ≠ 0 ∧ z.extended ≠ 0 → N.length.choose 3 ≤ z.triples →
          ∀ c : ParChoice ι, c.Valid → ∀ out, Stages.Run fuel (parallelPC T z c oc o) ⟨startGraph gn, hist⟩ out →
          out.1 = .ok () ∧
          (∀ a b, out.2.graph.edgeExists a b = true ↔ Dag.Adj (HasEdge edges) a b) ∧
          ∀ a b, out.2.graph.Arrow a b ↔ Dag.Compelled (HasEdge edges) a b) := by
  obtain ⟨δ, hδ, h⟩ := oracle_near hd hΦ ht hqΦ hqq hv hn
  refine ⟨δ, hδ, ?_⟩
  intro A u hu hu' hA col' hc reg gn hp hgn hfresh oc hoc o ho fuel hf hist T
  have hw := whole_near (h A u hu hu' hA col' hc reg) hp hgn hfresh hoc ho fuel hist
  have hE : ∀ a b, HasEdge edges a b → a ∈ gn.nodes ∧ b ∈ gn.nodes := fun a b h =>
    ⟨hp.mem_iff.2 ((hd.vars a).2 (mentioned_src h)), hp.mem_iff.2 ((hd.vars b).2 (mentioned_dst h))⟩
  have hf' : gn.nodes.length * gn.nodes.length + 2 ≤ fuel := by rw [hp.length_eq]; exact hf
  exact ⟨fun ord hord alg halg => oriented_graph hd.acyclic hE (hw.1 ord hord alg halg) hf',
    fun z hz hfit c hcv out hrun => oriented_graph hd.acyclic hE (hw.2 z hz hfit c hcv out hrun) hf'⟩

/-! ## C129 -/

/-- **C129.** The same for the complete algorithms with the step that computes direct effects: if the noise averages to zero,
then for every `ε` there is a number `δ` such that with every arithmetic of precision better than `δ` and every least squares
solver that is right up to rounding, on all data within `δ` of the ideal data, the complete `PC`, `PCClassic` and `ParallelPC`
do not raise, return the adjacencies of the DAG and exactly the compelled edges, and the direct effects on arrows into
variables without undirected edges differ from the coefficients of the equations by less than `ε`. -/
theorem C129_rounding_effects {edges : List (SEdge ι ℝ)} {noise col : ι → Fin n → ℝ} {N : List ι}
    (hd : LinearData edges noise col N) (hm : ∀ v ∈ N, MeanZero (noise v)) (Φ : ℝ → ℝ) (hΦ : NormalLike Φ)
    (threshold q q' : ℝ) (ht : threshold < 1) (hqΦ : Φ q = 1 - threshold / 2) (hqq : q < q')
    (hv : Visible (HasEdge edges) N q' col) (hn : N.length + 1 ≤ n) (ε : ℝ) (hε : 0 < ε) :
    ∃ δ > 0, ∀ (A : Arith) (u : ℝ), 0 < u → u < δ → A.Precise Φ u →
      ∀ col' : ι → Fin n → ℝ, (∀ v ∈ N, ∀ i, |col' v i - col v i| < δ) →
      ∀ (reg : List ι → Except PyErr Bool) (gn : CGraph ι (Option ℝ)), gn.nodes.Perm N → ReachableClean gn →
      (∀ a b, gn.retrieveEdgeHistory a b .removeEdgeUndirected = []) →
      ∀ D : Effects.Source ι (Option ℝ), (∀ v ∈ N, D.values v = some (List.ofFn fun i => some (col' v i))) →
      LeastSquaresUpTo u D.lstsq →
      ∀ (oc : Orient.Ord ι (Option ℝ)), oc.Valid → ∀ (o : Orient.Ords ι (Option ℝ)), o.Valid →
      ∀ (fuel : Nat), N.length * N.length + 2 ≤ fuel → ∀ (hist : List (HistRec ι (Info ι (Option ℝ)))),
        let T := Rounding.tests A reg threshold col'
        (∀ ord : NbOrd ι, ord.Valid → ∀ alg, alg = pc T ord oc o ∨ alg = pcClassic T ord oc o →
          let full := alg ++ [.plain (Effects.effectStep D)]
          (runPipeline fuel full ⟨startGraph gn, hist⟩).1 = .ok () ∧
          LearnedUpTo ε edges (graphAfter fuel full ⟨startGraph gn, hist⟩)) ∧
        (∀ z : Sizes, z.triples ≠ 0 ∧ z.sampled ≠ 0 ∧ z.extended ≠ 0 → N.length.choose 3 ≤ z.triples →
          ∀ c : ParChoice ι, c.Valid → ∀ out, Stages.Run fuel
            (parallelPC T z c oc o ++ [.seq (.plain (Effects.effectStep D))]) ⟨startGraph gn, hist⟩ out →
          out.1 = .ok () ∧ LearnedUpTo ε edges out.2.graph) := by
  obtain ⟨δ₁, hδ₁, h1⟩ := oracle_near hd hΦ ht hqΦ hqq hv hn
  obtain ⟨δ₂, hδ₂, h2⟩ := effects_near hd hm hε
  refine ⟨min δ₁ δ₂, lt_min hδ₁ hδ₂, ?_⟩
  intro A u hu hu' hA col' hc reg gn hp hgn hfresh D hval hls oc hoc o ho fuel hf hist T
  obtain ⟨hs, hfit⟩ := h2 u hu (hu'.trans_le (min_le_right _ _)) col'
    (fun v hv i => (hc v hv i).trans_le (min_le_right _ _))
  have hw := whole_near (h1 A u hu (hu'.trans_le (min_le_left _ _)) hA col'
    (fun v hv i => (hc v hv i).trans_le (min_le_left _ _)) reg) hp hgn.reachable hfresh hoc ho fuel hist
  have hf' : gn.nodes.length * gn.nodes.length + 2 ≤ fuel := by rw [hp.length_eq]; exact hf
  have hcl := Effects.createAll_clean hgn ({} : Info ι (Option ℝ))
  have hreg : ∀ x : Except PyErr Unit × GModel ι (Info ι (Option ℝ)), Oriented (HasEdge edges) gn.nodes fuel x →
      Effects.Regressions some D x.2.graph (fun P y β => NearFit u P col' (col' y) β) := by
    intro x hx
    refine near_regressions hls (fun p hp' => hval p (hp.mem_iff.1 (hx.nodes ▸ hp'))) ?_
    rw [hx.nodes, List.toFinset_eq_of_perm _ _ hp]
    exact hs
  refine ⟨?_, ?_⟩
  · intro ord hord alg halg full
    have hr := hw.1 ord hord alg halg
    obtain ⟨k1, k2⟩ := Effects.last_run_fits fuel alg ⟨startGraph gn, hist⟩ hcl.reachable.wf hcl.revExact (hr.ends hf')
      (hreg _ hr)
    exact ⟨k1, learned_near hd hp hr hf'
      (Effects.runPipeline_clean fuel full ⟨startGraph gn, hist⟩ hcl.reachable.wf hcl.revExact).1 k2 hfit⟩
  · intro z hz hfits c hcv out hrun
    have whole : ∀ x, Stages.Run fuel (parallelPC T z c oc o) ⟨startGraph gn, hist⟩ x →
        Oriented (HasEdge edges) gn.nodes fuel x ∧ WF0 x.2.graph ∧ RevExact x.2.graph :=
      fun x hx => ⟨hw.2 z hz hfits c hcv x hx, stages_clean hx ⟨hcl.reachable.wf, hcl.revExact⟩⟩
    rcases stages_append.1 hrun with ⟨m', r1, r2⟩ | ⟨e, m', r1, r2⟩
    · obtain ⟨w1, w2, w3⟩ := whole _ r1
      have r2' := (stages_seq (ps := [.plain (Effects.effectStep D)])).1 r2
      obtain ⟨k1, k2⟩ := Effects.last_run_fits fuel [] m' w2 w3 rfl (hreg _ w1)
      have k3 := (Effects.runPipeline_clean fuel [.plain (Effects.effectStep D)] m' w2 w3).1
      rw [r2']
      exact ⟨k1, learned_near hd hp w1 hf' k3 k2 hfit⟩
    · have := (whole _ r1).1.ends hf'
      cases this

/-! ## examples -/

/-- the multiple of `h` nearest to `x` -/
noncomputable def onGrid (h x : ℝ) : ℝ := h * round (x / h)

theorem onGrid_near {h : ℝ} (hh : 0 < h) (x : ℝ) : |onGrid h x - x| ≤ h := by
  have h1 := abs_sub_round (x / h)
  have e : onGrid h x - x = -(h * (x / h - round (x / h))) := by
    unfold onGrid
    field_simp
    ring
  rw [e, abs_neg, abs_mul, abs_of_pos hh]
  nlinarith

/-- fixed point arithmetic: every result is rounded to a multiple of `h`; the matrices are rounded before they are inverted -/
noncomputable def gridArith (Φ : ℝ → ℝ) (h : ℝ) : Arith where
  add a b := onGrid h (a + b)
  sub a b := onGrid h (a - b)
  mul a b := onGrid h (a * b)
  div a b := onGrid h (a / b)
  sqrt a := onGrid h (√a)
  log a := onGrid h (Real.log a)
  cdf a := onGrid h (Φ a)
  sum x := onGrid h (∑ i, x i)
  std x := onGrid h (Stats.stdPop x)
  cov x := fun i j => onGrid h (Stats.torchCov x i j)
  det C := onGrid h (Matrix.det (fun i j => onGrid h (C i j)))
  inv C := Matrix.inv.inv (fun i j => onGrid h (C i j))

theorem gridArith_precise (Φ : ℝ → ℝ) {h u : ℝ} (hh : 0 < h) (hu : h ≤ u) : (gridArith Φ h).Precise Φ u := by
  have near : ∀ x s, 0 ≤ s → |onGrid h x - x| ≤ u * (1 + s) := by
    intro x s hs
    have := onGrid_near hh x
    nlinarith
  have comp : ∀ x, Computes u x (onGrid h x) := fun x _ => near x _ (abs_nonneg x)
  have size0 : ∀ {k m : ℕ} (C : Matrix (Fin k) (Fin m) ℝ), 0 ≤ Rounding.size C := fun C =>
    Finset.sum_nonneg fun i _ => Finset.sum_nonneg fun j _ => abs_nonneg _
  refine ⟨fun a b => ?_, fun _ _ => comp _, fun _ _ => comp _, fun _ _ => comp _, fun _ _ _ => comp _, fun _ _ => comp _,
    fun _ _ => comp _, fun a => (onGrid_near hh _).trans hu, fun x _ => near _ _ ?_, fun x _ => near _ _ ?_,
    fun x _ i j => near _ _ (mul_nonneg (size0 _) (size0 _)), fun C _ => ⟨fun i j => onGrid h (C i j), ?_, comp _⟩, ?_⟩
  · show onGrid h (a * b) = onGrid h (b * a)
    rw [mul_comm]
  · exact Finset.sum_nonneg fun i _ => abs_nonneg _
  · exact Finset.sum_nonneg fun i _ => abs_nonneg _
  · exact fun i j => near _ _ (size0 _)
  · intro k C _ hdet j
    refine ⟨fun i j => onGrid h (C i j), fun i j => near _ _ (size0 _), ?_⟩
    have h0 : Matrix.det (fun i j => onGrid h (C i j)) ≠ 0 := by
      intro h0
      apply hdet
      show onGrid h (Matrix.det (fun i j => onGrid h (C i j))) = 0
      rw [h0]
      simp [onGrid]
    have hm := Matrix.mul_nonsing_inv (fun i j => onGrid h (C i j)) (isUnit_iff_ne_zero.2 h0)
    funext i
    have := congrFun (congrFun hm i) j
    rw [Matrix.one_apply] at this
    exact this

/-- a solver that works on rounded data -/
theorem gridSolver_exists {h u : ℝ} (hh : 0 < h) (hu : h ≤ u) : ∃ lstsq, LeastSquaresUpTo u lstsq := by
  obtain ⟨l, hl⟩ := effectSolver_exists
  refine ⟨fun cols y => l (cols.map (fun c => c.map (Option.map (onGrid h)))) (y.map (Option.map (onGrid h))), ?_⟩
  intro k m cols y _ _
  obtain ⟨b, hb, hs⟩ := hl k m (fun j i => onGrid h (cols j i)) (fun i => onGrid h (y i))
  have near : ∀ x s, 0 ≤ s → |onGrid h x - x| ≤ u * (1 + s) := by
    intro x s hs
    have := onGrid_near hh x
    nlinarith
  refine ⟨b, ?_, fun j i => onGrid h (cols j i), fun i => onGrid h (y i), fun p _ i => near _ _ ?_, fun i => near _ _ ?_, hs.1⟩
  · simp only [List.map_ofFn, Function.comp_def, Option.map_some]
    exact hb
  · exact Finset.sum_nonneg fun i _ => Finset.sum_nonneg fun j _ => abs_nonneg _
  · exact Finset.sum_nonneg fun i _ => abs_nonneg _

/-- C129 on `0 → 2 ← 1`, significance level 62%: in fixed point arithmetic with a fine enough grid and data rounded to that
grid, the complete `PC` finds the graph, and the coefficient of `0 → 2` is found up to a tenth. -/
theorem exGrid : ∃ h > 0, ∃ l, ∀ (ord : NbOrd ℕ), ord.Valid → ∀ (oc : Orient.Ord ℕ (Option ℝ)), oc.Valid →
    ∀ (o : Orient.Ords ℕ (Option ℝ)), o.Valid →
    let data : ℕ → Fin 8 → ℝ := fun v i => onGrid h (exLinTable v i)
    let D : Effects.Source ℕ (Option ℝ) := ⟨fun v => some (List.ofFn fun i => some (data v i)), l⟩
    LearnedUpTo (1 / 10) exLinEdges (graphAfter 11 (pc (Rounding.tests (gridArith normalCdf h) (fun _ => .ok false)
      (levelOf (1 / 2)) data) ord oc o ++ [.plain (Effects.effectStep D)]) ⟨startGraph (nodesOnly [0, 1, 2]), []⟩) := by
  have hmz : ∀ v ∈ [0, 1, 2], MeanZero (fun i => (exSigns v i : ℝ)) := by
    intro v hv
    unfold MeanZero
    rw [← Int.cast_sum, Int.cast_eq_zero]
    revert v
    decide
  obtain ⟨δ, hδ, key⟩ := C129_rounding_effects exLin_data hmz normalCdf normalCdf_normalLike (levelOf (1 / 2)) (1 / 2) 1
    (levelOf_lt (by norm_num)).2 (levelOf_eq _) (by norm_num) exLin_visible (by decide) (1 / 10) (by norm_num)
  have h2 : 0 < δ / 2 := by linarith
  obtain ⟨l, hl⟩ := gridSolver_exists h2 le_rfl
  refine ⟨δ / 2, h2, l, fun ord ho oc hoc o ho' => ?_⟩
  have hn : (nodesOnly (δ := Info ℕ (Option ℝ)) [0, 1, 2]).nodes = [0, 1, 2] := (nodesOnly_facts [0, 1, 2] (by decide)).1
  exact ((key _ (δ / 2) h2 (by linarith) (gridArith_precise normalCdf h2 le_rfl) _
    (fun v _ i => (onGrid_near h2 _).trans_lt (by linarith)) (fun _ => .ok false) (nodesOnly [0, 1, 2]) (by rw [hn])
    (Effects.nodesOnly_clean _) (fun a b => nodesOnly_history _ (by decide) a b _) _ (fun _ _ => rfl) hl oc hoc o ho' 11
    (by decide) []).1 ord ho _ (Or.inl rfl)).2

/-- C128 on the same data, with the other two algorithms of the same form -/
example : ∃ h > 0, ∀ (z : Sizes), z.triples ≠ 0 ∧ z.sampled ≠ 0 ∧ z.extended ≠ 0 →
    ∀ (c : ParChoice ℕ), c.Valid → ∀ (oc : Orient.Ord ℕ (Option ℝ)), oc.Valid → ∀ (o : Orient.Ords ℕ (Option ℝ)), o.Valid →
    ∀ out, Stages.Run 11 (parallelPC (Rounding.tests (gridArith normalCdf h) (fun _ => .ok false) (levelOf (1 / 2))
      (fun v i => onGrid h (exLinTable v i) : ℕ → Fin 8 → ℝ)) z c oc o) ⟨startGraph (nodesOnly [0, 1, 2]), []⟩ out →
    out.1 = .ok () ∧ out.2.graph.edgeExists 0 2 = true ∧ out.2.graph.edgeExists 0 1 = false := by
  obtain ⟨δ, hδ, key⟩ := C128_rounding exLin_data normalCdf normalCdf_normalLike (levelOf (1 / 2)) (1 / 2) 1
    (levelOf_lt (by norm_num)).2 (levelOf_eq _) (by norm_num) exLin_visible (by decide)
  have h2 : 0 < δ / 2 := by linarith
  refine ⟨δ / 2, h2, fun z hz c hc oc hoc o ho' out hrun => ?_⟩
  have hn : (nodesOnly (δ := Info ℕ (Option ℝ)) [0, 1, 2]).nodes = [0, 1, 2] := (nodesOnly_facts [0, 1, 2] (by decide)).1
  obtain ⟨k1, k2, _⟩ := (key _ (δ / 2) h2 (by linarith) (gridArith_precise normalCdf h2 le_rfl) _
    (fun v _ i => (onGrid_near h2 _).trans_lt (by linarith)) (fun _ => .ok false) (nodesOnly [0, 1, 2]) (by rw [hn])
    (nodesOnly_reachable _) (fun a b => nodesOnly_history _ (by decide) a b _) oc hoc o ho' 11
    (by decide) []).2 z hz (by
      have : [0, 1, 2].length.choose 3 = 1 := by decide
      rw [this]
      exact Nat.one_le_iff_ne_zero.2 hz.1) c hc out hrun
  refine ⟨k1, (k2 0 2).2 ?_, ?_⟩
  · simp only [Dag.Adj, exLin_edge]; decide
  · rw [← Bool.not_eq_true, k2]
    simp only [Dag.Adj, exLin_edge]; decide

end Verif
