import Verif.PC.Lemmas5
import Verif.Dag.Decide

/-!
# Properties of the algorithms `PC` and `PCClassic` under a perfect oracle (C45, C46)
-/

namespace Verif
open Graph CI Orient PC
variable {ι ρ : Type} [DecidableEq ι]

/-! ## perfect oracles exist -/

/-- tests that compute d-separation in `E` -/
def exactTests [Zero ρ] (E : ι → ι → Prop) [DecidableRel E] (N : List ι) : Tests ι ρ where
  pearson _ _ := 0
  t0 x y _ := .ok (Dag.dsep E N x y [])
  t1 _ x y z _ _ _ := .ok (some (Dag.dsep E N x y [z]))
  tm c := match c with
    | x :: y :: S => .ok (some (Dag.dsep E N x y S))
    | _ => .ok none
  reg c := match c with
    | x :: y :: S => .ok (Dag.dsep E N x y S)
    | _ => .ok false

/-- for every DAG there is a perfect oracle -/
theorem exactTests_oracle [Zero ρ] (E : ι → ι → Prop) [DecidableRel E] (N : List ι) (hac : Dag.Acyclic E)
    (hN : ∀ a b, E a b → a ∈ N ∧ b ∈ N) : Oracle (exactTests E N : Tests ι ρ) E N where
  acyclic := hac
  edges := hN
  total := ⟨fun _ _ _ _ _ => ⟨_, rfl⟩, fun _ _ _ _ _ _ _ _ _ => ⟨_, rfl⟩, fun _ _ _ _ _ => ⟨_, rfl⟩,
    fun _ _ _ _ _ _ => ⟨_, rfl⟩⟩
  sym := fun _ _ => rfl
  marginal := by
    intro x y hx _ _
    rw [← Dag.dsep_iff hac hN hx]
    simp only [exactTests, Except.ok.injEq]
  triple := fun x y z hx _ _ _ _ _ => ⟨_, rfl, Dag.dsep_iff hac hN hx⟩
  matrix := fun x y S _ hm => ⟨_, rfl, Dag.dsep_iff hac hN (hm x (by simp))⟩
  regression := by
    intro x y S _ hm
    rw [← Dag.dsep_iff hac hN (hm x (by simp))]
    simp only [exactTests, Except.ok.injEq]

/-! ## the DAG of the examples -/

/-- `0 → 2 ← 1`, `2 → 3 → 4` -/
def exDag : Nat → Nat → Prop := fun a b => (a, b) ∈ [(0, 2), (1, 2), (2, 3), (3, 4)]

instance : DecidableRel exDag := fun a b => inferInstanceAs (Decidable ((a, b) ∈ [(0, 2), (1, 2), (2, 3), (3, 4)]))

theorem exDag_acyclic : Dag.Acyclic exDag := by
  refine Dag.acyclic_of_lt id ?_
  intro a b h
  simp only [exDag, List.mem_cons, Prod.mk.injEq, List.not_mem_nil, or_false] at h
  simp only [id]
  omega

theorem exDag_nodes : ∀ a b, exDag a b → a ∈ [0, 1, 2, 3, 4] ∧ b ∈ [0, 1, 2, 3, 4] := by
  intro a b h
  simp only [exDag, List.mem_cons, Prod.mk.injEq, List.not_mem_nil, or_false] at h
  simp only [List.mem_cons, List.not_mem_nil, or_false]
  omega

/-- the oracle of the example -/
def exOracle : Tests Nat Int := exactTests exDag [0, 1, 2, 3, 4]

/-- the graph store the run starts from -/
def exPcNodes : CGraph Nat Int := nodesOnly [0, 1, 2, 3, 4]

/-- some order of sets -/
def exNbOrd : NbOrd Nat := fun _ _ _ l => l.dedup

theorem exNbOrd_valid : exNbOrd.Valid := fun _ _ _ l => ⟨l.nodup_dedup, fun _ => List.mem_dedup⟩

theorem exPcNodes_nodes : exPcNodes.nodes = [0, 1, 2, 3, 4] := by decide +kernel

theorem exOracle_oracle : Oracle exOracle exDag exPcNodes.nodes := by
  rw [exPcNodes_nodes]
  exact exactTests_oracle exDag _ exDag_acyclic exDag_nodes

/-! ## C45 -/

/-- **C45.** With a perfect oracle for any DAG over the variables, whatever the iteration orders, the skeleton phases of `PC`
and `PCClassic` do not raise and end with exactly the adjacencies of the DAG. -/
theorem C45_skeleton_recovered (T : Tests ι ρ) (E : ι → ι → Prop) (gn : CGraph ι ρ) (hgn : Reachable gn)
    (hO : Oracle T E gn.nodes) (ord : NbOrd ι) (ho : ord.Valid) (sk : List (PStep ι (Info ι ρ)))
    (hsk : sk = pcSkeleton T ord ∨ sk = classicSkeleton T ord) (fuel : Nat) (h : List (HistRec ι (Info ι ρ))) :
    (runPipeline fuel sk ⟨startGraph gn, h⟩).1 = .ok () ∧
    (graphAfter fuel sk ⟨startGraph gn, h⟩).nodes = gn.nodes ∧
    ∀ x y, (graphAfter fuel sk ⟨startGraph gn, h⟩).edgeExists x y = true ↔ Dag.Adj E x y := by
  obtain ⟨g, h', h1, h2, _, _⟩ := skeleton_run hgn hO ho hsk fuel h
  obtain ⟨_, hn, hc⟩ := start_facts gn hgn T
  have hO' : Oracle T E (startGraph gn).nodes := hn ▸ hO
  unfold graphAfter
  rw [h1]
  refine ⟨rfl, h2.1.nodes.trans hn, ?_⟩
  intro x y
  have hadj : ∀ a b, g.live a b = true ↔ Dag.Adj E a b := by
    intro a b
    constructor
    · intro hl
      have := h2.1.wf.live_nodes hl
      rw [h2.1.nodes] at this
      exact (h2.2 a b this.1 this.2 (h2.1.wf.live_ne hl)).1 hl
    · exact fun ha => adj_live hO' hc h2.1 ha
  rw [edgeExists_eq h2.1.wf, Bool.or_eq_true, hadj, hadj]
  exact ⟨fun hh => hh.elim _root_.id Dag.Adj.symm, Or.inl⟩

/-- the DAG `0 → 2 ← 1`, `2 → 3 → 4`: both phases find its four adjacencies and no others -/
example : let f := fun sk => (([0, 1, 2, 3, 4] ×ˢ [0, 1, 2, 3, 4]).filter (fun p =>
      (graphAfter 0 sk ⟨startGraph exPcNodes, []⟩).edgeExists p.1 p.2 && decide (p.1 < p.2)))
    f (pcSkeleton exOracle exNbOrd) = [(0, 2), (1, 2), (2, 3), (3, 4)] ∧
    f (classicSkeleton exOracle exNbOrd) = [(0, 2), (1, 2), (2, 3), (3, 4)] := by
  decide +kernel

/-- the hypotheses hold for it -/
example : Reachable exPcNodes ∧ Oracle exOracle exDag exPcNodes.nodes ∧ exNbOrd.Valid :=
  ⟨nodesOnly_reachable _, exOracle_oracle, exNbOrd_valid⟩

/-! ## C46 -/

/-- **C46, soundness.** With a perfect oracle for any DAG, from nodes without removal history: after the skeleton phase, the
collider test and however many rounds of the rules (`fuel`), the graph has exactly the adjacencies of the DAG, each of its
one-way edges points as in the DAG, and every unshielded collider of the DAG is oriented. -/
theorem C46_orientation_sound (T : Tests ι ρ) (E : ι → ι → Prop) (gn : CGraph ι ρ) (hgn : Reachable gn)
    (hfresh : ∀ a b, gn.retrieveEdgeHistory a b .removeEdgeUndirected = [])
    (hO : Oracle T E gn.nodes) (ord : NbOrd ι) (ho : ord.Valid) (oc : Ord ι ρ) (hoc : oc.Valid) (o : Ords ι ρ) (ho' : o.Valid)
    (alg : List (PStep ι (Info ι ρ))) (halg : alg = pc T ord oc o ∨ alg = pcClassic T ord oc o) (fuel : Nat)
    (h : List (HistRec ι (Info ι ρ))) :
    let g := graphAfter fuel alg ⟨startGraph gn, h⟩
    (∀ x y, g.edgeExists x y = true ↔ Dag.Adj E x y) ∧
    (∀ x y, g.Arrow x y → E x y) ∧
    (∀ x z y, Dag.VStructure E x z y → g.Arrow x z ∧ g.Arrow y z) := by
  intro g
  have hr : Sound E g := by
    rcases halg with rfl | rfl
    · exact (whole_run hgn hfresh hO ho (Or.inl rfl) hoc ho' fuel h).sound
    · exact (whole_run hgn hfresh hO ho (Or.inr rfl) hoc ho' fuel h).sound
  refine ⟨fun x y => by rw [edge_iff hr.wf, hr.adj], hr.arrow, ?_⟩
  rintro x z y hv
  exact ⟨hr.coll x z y hv, hr.coll y z x ⟨⟨hv.1.2, hv.1.1⟩, hv.2.1.symm, fun hh => hv.2.2 hh.symm⟩⟩

/-- **C46, exit.** The run never raises, its loop exits within (number of variables)² + 2 checks of the exit condition, and
then none of Meek's four rules applies any more. -/
theorem C46_loop_exits_closed (T : Tests ι ρ) (E : ι → ι → Prop) (gn : CGraph ι ρ) (hgn : Reachable gn)
    (hfresh : ∀ a b, gn.retrieveEdgeHistory a b .removeEdgeUndirected = [])
    (hO : Oracle T E gn.nodes) (ord : NbOrd ι) (ho : ord.Valid) (oc : Ord ι ρ) (hoc : oc.Valid) (o : Ords ι ρ) (ho' : o.Valid)
    (alg : List (PStep ι (Info ι ρ))) (halg : alg = pc T ord oc o ∨ alg = pcClassic T ord oc o) (fuel : Nat)
    (hf : gn.nodes.length * gn.nodes.length + 2 ≤ fuel) (h : List (HistRec ι (Info ι ρ))) :
    let g := graphAfter fuel alg ⟨startGraph gn, h⟩
    (runPipeline fuel alg ⟨startGraph gn, h⟩).1 = .ok () ∧
    ∀ a b, ¬ g.Meek1 a b ∧ ¬ g.Meek2 a b ∧ ¬ g.Meek3 a b ∧ ¬ g.Meek4 a b := by
  intro g
  have hr : Oriented E gn.nodes fuel (runPipeline fuel alg ⟨startGraph gn, h⟩) := by
    rcases halg with rfl | rfl
    · exact whole_run hgn hfresh hO ho (Or.inl rfl) hoc ho' fuel h
    · exact whole_run hgn hfresh hO ho (Or.inr rfl) hoc ho' fuel h
  exact ⟨hr.ends hf, hr.closed (hr.ends hf)⟩

/-- in the example the collider test finds `0 → 2 ← 1` and rule 1 adds `2 → 3` and `3 → 4` -/
example : let g := graphAfter 27 (pc exOracle exNbOrd exSetOrd exSetOrds) ⟨startGraph exPcNodes, []⟩
    g.onlyDirectedEdgeExists 0 2 = true ∧ g.onlyDirectedEdgeExists 1 2 = true ∧ g.onlyDirectedEdgeExists 2 3 = true ∧
    g.onlyDirectedEdgeExists 3 4 = true ∧ g.edgeExists 0 1 = false ∧ g.edgeExists 0 3 = false := by
  decide +kernel

/-- the remaining hypotheses -/
example : (∀ a b, exPcNodes.retrieveEdgeHistory a b .removeEdgeUndirected = []) ∧ exSetOrd.Valid ∧ exSetOrds.Valid ∧
    exPcNodes.nodes.length * exPcNodes.nodes.length + 2 ≤ 27 ∧ Dag.VStructure exDag 0 2 1 := by
  refine ⟨fun a b => nodesOnly_history _ (by decide) a b _, exSetOrd_valid, exSetOrds_valid, ?_, ?_⟩
  · rw [exPcNodes_nodes]; decide
  · unfold Dag.VStructure Dag.Collider Dag.Adj; decide

end Verif
