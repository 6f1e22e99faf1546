import Verif.PC.Cpdag
import Verif.PC.Props
import Verif.PC.ParProps

/-!
# Properties C93 and C94: with perfect tests the result is all that the tests can tell
-/

namespace Verif
open Graph CI Orient PC
variable {ι ρ : Type} [DecidableEq ι]

/-! ## C93 -/

/-- **C93.** With tests that are perfect for some DAG, from nodes without removal history, whatever the iteration orders: once
its loop has exited, the result of `PC` and of `PCClassic` has `a → b` exactly if every DAG the tests are perfect for has this
edge, and `a – b` exactly if some such DAG has it one way and some the other way. -/
theorem C93_directed_iff_all_agree (T : Tests ι ρ) (E : ι → ι → Prop) (gn : CGraph ι ρ) (hgn : Reachable gn)
    (hfresh : ∀ a b, gn.retrieveEdgeHistory a b .removeEdgeUndirected = [])
    (hO : Oracle T E gn.nodes) (ord : NbOrd ι) (ho : ord.Valid) (oc : Orient.Ord ι ρ) (hoc : oc.Valid) (o : Ords ι ρ)
    (ho' : o.Valid) (alg : List (PStep ι (Info ι ρ))) (halg : alg = pc T ord oc o ∨ alg = pcClassic T ord oc o) (fuel : Nat)
    (hf : gn.nodes.length * gn.nodes.length + 2 ≤ fuel) (h : List (HistRec ι (Info ι ρ))) :
    let g := graphAfter fuel alg ⟨startGraph gn, h⟩
    (∀ a b, g.Arrow a b ↔ ∀ E', Oracle T E' gn.nodes → E' a b) ∧
    (∀ a b, g.Line a b ↔ (∃ E', Oracle T E' gn.nodes ∧ E' a b) ∧ ∃ E', Oracle T E' gn.nodes ∧ E' b a) := by
  intro g
  have hr : ∀ E', Oracle T E' gn.nodes → Oriented E' gn.nodes fuel (runPipeline fuel alg ⟨startGraph gn, h⟩) := by
    intro E' hE'
    rcases halg with rfl | rfl
    · exact whole_run hgn hfresh hE' ho (Or.inl rfl) hoc ho' fuel h
    · exact whole_run hgn hfresh hE' ho (Or.inr rfl) hoc ho' fuel h
  exact (hr E hO).tells hO hf (fun E' hE' => (hr E' hE').sound)

/-- **C93, in terms of the graph.** The one-way edges of the result are the edges that point the same way in every DAG with the
adjacencies and unshielded colliders of the true one. -/
theorem C93_compelled_edges (T : Tests ι ρ) (E : ι → ι → Prop) (gn : CGraph ι ρ) (hgn : Reachable gn)
    (hfresh : ∀ a b, gn.retrieveEdgeHistory a b .removeEdgeUndirected = [])
    (hO : Oracle T E gn.nodes) (ord : NbOrd ι) (ho : ord.Valid) (oc : Orient.Ord ι ρ) (hoc : oc.Valid) (o : Ords ι ρ)
    (ho' : o.Valid) (alg : List (PStep ι (Info ι ρ))) (halg : alg = pc T ord oc o ∨ alg = pcClassic T ord oc o) (fuel : Nat)
    (hf : gn.nodes.length * gn.nodes.length + 2 ≤ fuel) (h : List (HistRec ι (Info ι ρ))) (a b : ι) :
    (graphAfter fuel alg ⟨startGraph gn, h⟩).Arrow a b ↔ Dag.Compelled E a b := by
  have hr : Oriented E gn.nodes fuel (runPipeline fuel alg ⟨startGraph gn, h⟩) := by
    rcases halg with rfl | rfl
    · exact whole_run hgn hfresh hO ho (Or.inl rfl) hoc ho' fuel h
    · exact whole_run hgn hfresh hO ho (Or.inr rfl) hoc ho' fuel h
  have hc := hr.closed (hr.ends hf)
  exact (completed hO.acyclic hO.edges hr.sound hr.equiv
    (fun a b => ⟨(hc a b).1, (hc a b).2.1, (hc a b).2.2.1⟩)).1 a b

/-- **C93, the tests know no more.** Two DAGs over the variables answer every question about d-separation alike exactly if
they have the same adjacencies and the same unshielded colliders. -/
theorem C93_same_separations_iff (E E' : ι → ι → Prop) (N : List ι) (hac : Dag.Acyclic E) (hac' : Dag.Acyclic E')
    (hN : ∀ a b, E a b → a ∈ N ∧ b ∈ N) (hN' : ∀ a b, E' a b → a ∈ N ∧ b ∈ N) :
    (∀ u v Z, u ≠ v → u ∉ Z → v ∉ Z → (Dag.DSep E u v Z ↔ Dag.DSep E' u v Z)) ↔ Dag.Equivalent E E' := by
  classical
  refine ⟨fun h => ?_, fun he u v Z hne hu _ => he.dsep_iff hac hac' hN hne hu⟩
  have sep : ∀ (F : ι → ι → Prop), Dag.Acyclic F → (∀ a b, F a b → a ∈ N ∧ b ∈ N) → ∀ a b, a ≠ b → ¬ Dag.Adj F a b →
      ∃ Z, a ∉ Z ∧ b ∉ Z ∧ Dag.DSep F a b Z := by
    intro F hF hFN a b hne hn
    rcases Dag.dsep_of_not_adj hF hne hn (Zu := N.filter (fun p => decide (F p a))) (Zv := N.filter (fun p => decide (F p b)))
      (fun p => by simpa using fun hp => (hFN p a hp).1) (fun p => by simpa using fun hp => (hFN p b hp).1) with hd | hd
    · exact ⟨_, by simp [hF.irrefl], by simpa using fun _ hh => hn (Or.inr hh), hd⟩
    · exact ⟨_, by simpa using fun _ hh => hn (Or.inl hh), by simp [hF.irrefl], hd⟩
  have half : ∀ (F F' : ι → ι → Prop), Dag.Acyclic F → Dag.Acyclic F' → (∀ a b, F a b → a ∈ N ∧ b ∈ N) →
      (∀ u v Z, u ≠ v → u ∉ Z → v ∉ Z → (Dag.DSep F u v Z ↔ Dag.DSep F' u v Z)) →
      ∀ a b, a ≠ b → Dag.Adj F' a b → Dag.Adj F a b := by
    intro F F' hF hF' hFN hh a b hne ha
    by_contra hn
    obtain ⟨Z, z1, z2, hd⟩ := sep F hF hFN a b hne hn
    exact Dag.Adj.not_dsep hne ha Z ((hh a b Z hne z1 z2).1 hd)
  have irr : ∀ (F : ι → ι → Prop), Dag.Acyclic F → ∀ a, ¬ Dag.Adj F a a := fun F hF a hh => hh.elim (hF.irrefl a) (hF.irrefl a)
  have hadj : ∀ a b, Dag.Adj E a b ↔ Dag.Adj E' a b := by
    intro a b
    by_cases hne : a = b
    · subst hne
      exact ⟨fun hh => absurd hh (irr E hac a), fun hh => absurd hh (irr E' hac' a)⟩
    · exact ⟨half E' E hac' hac hN' (fun u v Z h1 h2 h3 => (h u v Z h1 h2 h3).symm) a b hne, half E E' hac hac' hN h a b hne⟩
  refine ⟨hadj, ?_⟩
  have vs : ∀ (F F' : ι → ι → Prop), Dag.Acyclic F → Dag.Acyclic F' → (∀ a b, F a b → a ∈ N ∧ b ∈ N) →
      (∀ a b, Dag.Adj F a b ↔ Dag.Adj F' a b) →
      (∀ u v Z, u ≠ v → u ∉ Z → v ∉ Z → (Dag.DSep F u v Z ↔ Dag.DSep F' u v Z)) →
      ∀ a b c, Dag.VStructure F a b c → Dag.VStructure F' a b c := by
    intro F F' hF hF' hFN hA hh a b c ⟨⟨h1, h2⟩, hne, hn⟩
    obtain ⟨Z, z1, z2, hd⟩ := sep F hF hFN a c hne hn
    have hab : a ≠ b := by rintro rfl; exact hF.irrefl _ h1
    have hbc : b ≠ c := by rintro rfl; exact hF.irrefl _ h2
    have k1 := hd.mem_iff_not_collider hne hab hbc (Or.inl h1) (Or.inr h2)
    have k2 := ((hh a c Z hne z1 z2).1 hd).mem_iff_not_collider hne hab hbc ((hA _ _).1 (Or.inl h1)) ((hA _ _).1 (Or.inr h2))
    refine ⟨?_, hne, fun hx => hn ((hA _ _).2 hx)⟩
    by_contra hcol
    exact (k1.1 (k2.2 hcol)) ⟨h1, h2⟩
  intro a b c
  exact ⟨vs E E' hac hac' hN hadj h a b c,
    vs E' E hac' hac hN' (fun a b => (hadj a b).symm) (fun u v Z h1 h2 h3 => (h u v Z h1 h2 h3).symm) a b c⟩

/-- the DAG `0 → 2 ← 1`, `2 → 3`, `4 → 5`, whose last edge the tests cannot direct -/
def exMixed : Nat → Nat → Prop := fun a b => (a, b) ∈ [(0, 2), (1, 2), (2, 3), (4, 5)]

instance : DecidableRel exMixed := fun a b => inferInstanceAs (Decidable ((a, b) ∈ [(0, 2), (1, 2), (2, 3), (4, 5)]))

theorem exMixed_oracle : Oracle (exactTests exMixed [0, 1, 2, 3, 4, 5] : Tests Nat Int) exMixed
    (nodesOnly (δ := Info Nat Int) [0, 1, 2, 3, 4, 5]).nodes := by
  rw [show (nodesOnly (δ := Info Nat Int) [0, 1, 2, 3, 4, 5]).nodes = [0, 1, 2, 3, 4, 5] by decide +kernel]
  refine exactTests_oracle exMixed _ (Dag.acyclic_of_lt id ?_) ?_
  · intro a b h
    simp only [exMixed, List.mem_cons, Prod.mk.injEq, List.not_mem_nil, or_false] at h
    simp only [id]
    omega
  · intro a b h
    simp only [exMixed, List.mem_cons, Prod.mk.injEq, List.not_mem_nil, or_false] at h
    simp only [List.mem_cons, List.not_mem_nil, or_false]
    omega

/-- what `PC` makes of it -/
def exMixedResult : CGraph Nat Int :=
  graphAfter 38 (pc (exactTests exMixed [0, 1, 2, 3, 4, 5]) exNbOrd exSetOrd exSetOrds)
    ⟨startGraph (nodesOnly [0, 1, 2, 3, 4, 5]), []⟩

example : exMixedResult.onlyDirectedEdgeExists 0 2 = true ∧ exMixedResult.onlyDirectedEdgeExists 2 3 = true ∧ exMixedResult.undirectedEdgeExists 4 5 = true := by
  refine ⟨?_, ?_, ?_⟩ <;> decide +kernel

/-- the remaining hypotheses for it -/
example : (∀ a b, (nodesOnly (δ := Info Nat Int) [0, 1, 2, 3, 4, 5]).retrieveEdgeHistory a b .removeEdgeUndirected = []) ∧
    (nodesOnly (δ := Info Nat Int) [0, 1, 2, 3, 4, 5]).nodes.length *
      (nodesOnly (δ := Info Nat Int) [0, 1, 2, 3, 4, 5]).nodes.length + 2 ≤ 38 :=
  ⟨fun a b => nodesOnly_history _ (by decide) a b _, by decide +kernel⟩

/-! ## C94 -/

/-- **C94.** With perfect tests the edges of the result depend on nothing but the tests and the set of variables: whichever of
`PC` and `PCClassic` runs, in whatever order the variables were added and sets are iterated. -/
theorem C94_order_irrelevant (T : Tests ι ρ) (E : ι → ι → Prop) (gn gn' : CGraph ι ρ) (hgn : Reachable gn) (hgn' : Reachable gn')
    (hfresh : ∀ a b, gn.retrieveEdgeHistory a b .removeEdgeUndirected = [])
    (hfresh' : ∀ a b, gn'.retrieveEdgeHistory a b .removeEdgeUndirected = [])
    (hperm : gn.nodes.Perm gn'.nodes) (hO : Oracle T E gn.nodes)
    (ord ord' : NbOrd ι) (ho : ord.Valid) (ho' : ord'.Valid) (oc oc' : Orient.Ord ι ρ) (hoc : oc.Valid) (hoc' : oc'.Valid)
    (o o' : Ords ι ρ) (hv : o.Valid) (hv' : o'.Valid) (alg alg' : List (PStep ι (Info ι ρ)))
    (halg : alg = pc T ord oc o ∨ alg = pcClassic T ord oc o) (halg' : alg' = pc T ord' oc' o' ∨ alg' = pcClassic T ord' oc' o')
    (fuel fuel' : Nat) (hf : gn.nodes.length * gn.nodes.length + 2 ≤ fuel) (hf' : gn.nodes.length * gn.nodes.length + 2 ≤ fuel')
    (h h' : List (HistRec ι (Info ι ρ))) (a b : ι) :
    (graphAfter fuel alg ⟨startGraph gn, h⟩).directedEdgeExists a b =
      (graphAfter fuel' alg' ⟨startGraph gn', h'⟩).directedEdgeExists a b := by
  have hOp : ∀ E', Oracle T E' gn'.nodes ↔ Oracle T E' gn.nodes := by
    intro E'
    exact ⟨fun hh => hh.perm hperm.symm, fun hh => hh.perm hperm⟩
  obtain ⟨h1, h2⟩ := C93_directed_iff_all_agree T E gn hgn hfresh hO ord ho oc hoc o hv alg halg fuel hf h
  obtain ⟨k1, k2⟩ := C93_directed_iff_all_agree T E gn' hgn' hfresh' ((hOp E).2 hO) ord' ho' oc' hoc' o' hv' alg' halg' fuel'
    (by rw [← hperm.length_eq]; exact hf') h'
  simp only [hOp] at k1 k2
  exact same_edges (fun a b => (h1 a b).trans (k1 a b).symm) (fun a b => (h2 a b).trans (k2 a b).symm) a b

/-- **C94, the parallel algorithm.** If the triples of variables fit into one batch (up to 67 variables with the sizes of the
code, `C84_code_sizes`), `ParallelPC` ends in every schedule with the edges `PC` finds. -/
theorem C94_parallel_same_edges (T : Tests ι ρ) (E : ι → ι → Prop) (gn : CGraph ι ρ) (hgn : Reachable gn)
    (hfresh : ∀ a b, gn.retrieveEdgeHistory a b .removeEdgeUndirected = []) (hO : Oracle T E gn.nodes)
    (z : Sizes) (hz : z.triples ≠ 0 ∧ z.sampled ≠ 0 ∧ z.extended ≠ 0) (hfit : gn.nodes.length.choose 3 ≤ z.triples)
    (c : ParChoice ι) (hc : c.Valid) (ord : NbOrd ι) (ho : ord.Valid)
    (oc oc' : Orient.Ord ι ρ) (hoc : oc.Valid) (hoc' : oc'.Valid) (o o' : Ords ι ρ) (hv : o.Valid) (hv' : o'.Valid)
    (fuel : Nat) (hf : gn.nodes.length * gn.nodes.length + 2 ≤ fuel) (h h' : List (HistRec ι (Info ι ρ)))
    (out : Except PyErr Unit × GModel ι (Info ι ρ)) (hrun : Stages.Run fuel (parallelPC T z c oc o) ⟨startGraph gn, h⟩ out)
    (a b : ι) :
    out.2.graph.directedEdgeExists a b =
      (graphAfter fuel (pc T ord oc' o') ⟨startGraph gn, h'⟩).directedEdgeExists a b := by
  have hr : ∀ E', Oracle T E' gn.nodes → Oriented E' gn.nodes fuel out :=
    fun E' hE' => par_whole hgn hfresh hE' hz hfit hc hoc hv hrun
  obtain ⟨h1, h2⟩ := (hr E hO).tells hO hf (fun E' hE' => (hr E' hE').sound)
  obtain ⟨k1, k2⟩ := C93_directed_iff_all_agree T E gn hgn hfresh hO ord ho oc' hoc' o' hv' _ (Or.inl rfl) fuel hf h'
  exact same_edges (fun a b => (h1 a b).trans (k1 a b).symm) (fun a b => (h2 a b).trans (k2 a b).symm) a b

/-- the example of C45, its variables added in another order, in another set order -/
example : let g := graphAfter 27 (pc exOracle exNbOrd exSetOrd exSetOrds) ⟨startGraph exPcNodes, []⟩
    let g' := graphAfter 27 (pcClassic exOracle (fun _ _ _ l => l.dedup.reverse) exSetOrd exSetOrds)
      ⟨startGraph (nodesOnly [4, 2, 0, 3, 1]), []⟩
    ∀ a ∈ [0, 1, 2, 3, 4], ∀ b ∈ [0, 1, 2, 3, 4], g.directedEdgeExists a b = g'.directedEdgeExists a b := by
  decide +kernel

/-- its nodes are those of the other order -/
example : exPcNodes.nodes.Perm (nodesOnly (δ := Info Nat Int) [4, 2, 0, 3, 1]).nodes := by
  rw [exPcNodes_nodes, show (nodesOnly (δ := Info Nat Int) [4, 2, 0, 3, 1]).nodes = [4, 2, 0, 3, 1] by decide +kernel]
  decide

end Verif
