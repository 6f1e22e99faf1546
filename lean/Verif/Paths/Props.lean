import Verif.Paths.Lemmas2

/-!
# Properties C14–C20: path queries and d-separation

`fuel` is the available recursion depth; "for every fuel ≥ number of nodes the answer is ..." means that
the call terminates with this answer.
-/

namespace Verif
open Graph
variable {ι δ : Type} [DecidableEq ι]

/-- the order used in the examples -/
def exOrd : List Nat → List Nat := List.dedup

theorem exOrd_ok : SetOrder exOrd := fun l => ⟨List.nodup_dedup l, fun _ => List.mem_dedup⟩

/-- a cyclic graph with an undirected edge: 0 → 1 → 2 → 0, 2 – 3, isolated 4 -/
def exCyc : Graph Nat Nat := Cmd.runAll [.addNode 0, .addNode 1, .addNode 2, .addNode 3, .addNode 4,
  .addDirectedEdge 0 1 0 .directed, .addDirectedEdge 1 2 0 .directed, .addDirectedEdge 2 0 0 .directed,
  .addEdge 2 3 0 .undirected] Graph.empty

theorem exCyc_reachable : Reachable exCyc := ⟨_, rfl⟩

/-! ## C14 -/

/-- C14: `descendants_of_node` terminates on every graph and returns exactly the nodes reachable along
one-way edges, without duplicates. -/
theorem C14_descendants_exact (g : Graph ι δ) (hg : Reachable g) (ord : List ι → List ι) (hord : SetOrder ord)
    (u : ι) (hu : u ∈ g.nodes) :
    ∃ l, (∀ fuel, g.nodes.length ≤ fuel → g.descendantsOfNode ord fuel u = some l) ∧ l.Nodup ∧
      ∀ x, x ∈ l ↔ Relation.ReflTransGen (OneWay g) u x :=
  descendants_exact hg.wf hord hu

example : exCyc.descendantsOfNode exOrd 5 0 = some [0, 1, 2] ∧ exCyc.descendantsOfNode exOrd 5 3 = some [3] := by
  decide +kernel

/-! ## C15 -/

/-- C15: `all_paths_on_underlying_undirected_graph` terminates and yields each simple path exactly once. -/
theorem C15_all_paths_exact (g : Graph ι δ) (hg : Reachable g) (u v : ι) (hu : u ∈ g.nodes) :
    ∃ ps, (∀ fuel, g.nodes.length ≤ fuel → g.allPaths fuel u v = some ps) ∧ ps.Nodup ∧
      ∀ p, p ∈ ps ↔ SimplePath g u v p :=
  allPaths_exact hg.wf hu v

example : exCyc.allPaths 5 0 3 = some [[0, 1, 2, 3], [0, 2, 3]] := by decide +kernel

/-! ## C16 -/

/-- C16: on a stored DAG a True answer (for a conditioning set of `Node` objects) means d-separation, and
the query never raises.  Missing for the full claim: a False answer does not imply d-connection
(`C16_false_answer_wrong`), except under the hypothesis of `C16_dsep_single_collider`. -/
theorem C16_dsep_dag_sound_partial (g : Graph ι δ) (hg : Reachable g) (E : ι → ι → Prop) (hE : StoresDag g E)
    (ord : List ι → List ι) (hord : SetOrder ord) (fuel : Nat) (hf : g.nodes.length ≤ fuel) (u v : ι)
    (hu : u ∈ g.nodes) (Z : List ι) :
    ∃ b, g.areNodesDSeparatedDag ord fuel u v (Z.map Ref.node) = .ok b ∧ (b = true → Dag.DSep E u v Z) := by
  have h := hg.wf
  obtain ⟨ps, h1, h2⟩ := dag_answer (v := v) h hord hf hu (cs := Z.map Ref.node) (by simp)
  refine ⟨_, h2, ?_⟩
  intro hall p hp
  rw [← hE.path h, ← h1] at hp
  rw [List.all_eq_true] at hall
  have hb := hall p hp
  unfold dagBlocked at hb
  rw [Bool.or_eq_true, beq_iff_eq] at hb
  rcases hb with hb | hb
  · rcases colliderGo_true h hord hf _ p false hb with hx | ⟨a, b, c, hi, hc, hd⟩
    · cases hx
    · rw [hE.collider] at hc
      rw [hE.oneWay] at hd
      exact ⟨a, b, c, hi, Or.inl ⟨hc, fun d hd' => by simpa using hd d hd'⟩⟩
  · obtain ⟨a, b, c, hi, hc, hd⟩ := (nonCollider_iff _ p).1 hb
    rw [hE.collider] at hc
    exact ⟨a, b, c, hi, Or.inr ⟨hc, by simpa using hd⟩⟩

/-- C16: if no path has two colliders the answer is exactly d-separation. -/
theorem C16_dsep_single_collider (g : Graph ι δ) (hg : Reachable g) (E : ι → ι → Prop) (hE : StoresDag g E)
    (ord : List ι → List ι) (hord : SetOrder ord) (fuel : Nat) (hf : g.nodes.length ≤ fuel) (u v : ι)
    (hu : u ∈ g.nodes) (h1c : AtMostOneCollider E u v) (Z : List ι) :
    ∃ b, g.areNodesDSeparatedDag ord fuel u v (Z.map Ref.node) = .ok b ∧ (b = true ↔ Dag.DSep E u v Z) := by
  have h := hg.wf
  obtain ⟨b, hb, hs⟩ := C16_dsep_dag_sound_partial g hg E hE ord hord fuel hf u v hu Z
  refine ⟨b, hb, hs, ?_⟩
  intro hd
  obtain ⟨ps, h1, h2⟩ := dag_answer (v := v) h hord hf hu (cs := Z.map Ref.node) (by simp)
  rw [hb] at h2
  injection h2 with h2
  rw [h2, List.all_eq_true]
  intro p hp
  have hp' := (hE.path h).1 ((h1 p).1 hp)
  unfold dagBlocked
  rw [Bool.or_eq_true, beq_iff_eq]
  obtain ⟨a, b', c, hi, hx⟩ := hd p hp'
  rcases hx with ⟨hc, hdz⟩ | ⟨hc, hz⟩
  · left
    refine colliderGo_single h hord hf _ p false hp'.2.2.1 ?_ ⟨a, b', c, hi, (hE.collider _ _ _).2 hc, ?_⟩
    · intro a₁ b₁ c₁ a₂ b₂ c₂ i1 i2 k1 k2
      exact h1c p hp' a₁ b₁ c₁ a₂ b₂ c₂ i1 i2 ((hE.collider _ _ _).1 k1) ((hE.collider _ _ _).1 k2)
    · rw [hE.oneWay]
      intro d hd'
      simpa using hdz d hd'
  · right
    exact (nonCollider_iff _ p).2 ⟨a, b', c, hi, fun hh => hc ((hE.collider _ _ _).1 hh), by simpa using hz⟩

/-- the DAG 0 → 1 ← 2 → 3 ← 4 -/
def exTwoColliders : Graph Nat Nat := Cmd.runAll [.addNode 0, .addNode 1, .addNode 2, .addNode 3, .addNode 4,
  .addDirectedEdge 0 1 0 .directed, .addDirectedEdge 2 1 0 .directed, .addDirectedEdge 2 3 0 .directed,
  .addDirectedEdge 4 3 0 .directed] Graph.empty

/-- its edges as a relation -/
def exTwoE (a b : Nat) : Prop := (a, b) ∈ [(0, 1), (2, 1), (2, 3), (4, 3)]

theorem exTwoColliders_dag : StoresDag exTwoColliders exTwoE := by
  constructor
  · have hlt : ∀ a b, exTwoE a b → (if a = 0 ∨ a = 2 ∨ a = 4 then 0 else 1) < (if b = 0 ∨ b = 2 ∨ b = 4 then 0 else 1) := by
      intro a b h
      simp only [exTwoE, List.mem_cons, Prod.mk.injEq, List.not_mem_nil, or_false] at h
      rcases h with ⟨rfl, rfl⟩ | ⟨rfl, rfl⟩ | ⟨rfl, rfl⟩ | ⟨rfl, rfl⟩ <;> decide
    have : ∀ a b, Relation.TransGen exTwoE a b →
        (if a = 0 ∨ a = 2 ∨ a = 4 then 0 else 1) < (if b = 0 ∨ b = 2 ∨ b = 4 then 0 else 1) := by
      intro a b h
      induction h with
      | single h => exact hlt _ _ h
      | tail _ h ih => exact lt_trans ih (hlt _ _ h)
    intro a h
    exact absurd (this a a h) (lt_irrefl _)
  · intro a b
    have hrow : ∀ a b, exTwoColliders.directedEdgeExists a b = true → a < 5 ∧ b < 5 := by
      intro a b h
      have := directed_mem_nodes h
      have hn : exTwoColliders.nodes = [0, 1, 2, 3, 4] := by decide +kernel
      rw [hn] at this
      simp at this
      omega
    by_cases hab : a < 5 ∧ b < 5
    · have key : ∀ a : Fin 5, ∀ b : Fin 5, exTwoColliders.directedEdgeExists a b = true ↔
          (a.1, b.1) ∈ [(0, 1), (2, 1), (2, 3), (4, 3)] := by decide +kernel
      exact key ⟨a, hab.1⟩ ⟨b, hab.2⟩
    · constructor
      · intro h; exact absurd (hrow a b h) hab
      · intro h
        exfalso; apply hab
        simp only [exTwoE, List.mem_cons, Prod.mk.injEq, List.not_mem_nil, or_false] at h
        omega
  · intro a b h
    simp only [exTwoE, List.mem_cons, Prod.mk.injEq, List.not_mem_nil, or_false] at h
    rcases h with ⟨rfl, rfl⟩ | ⟨rfl, rfl⟩ | ⟨rfl, rfl⟩ | ⟨rfl, rfl⟩ <;> decide +kernel

/-- C16, negation of the converse: on 0 → 1 ← 2 → 3 ← 4 given {3} the nodes 0 and 4 are d-separated but
the answer is False, because only the last collider of a path counts. -/
theorem C16_false_answer_wrong : ∃ (g : Graph Nat Nat) (E : Nat → Nat → Prop), Reachable g ∧ StoresDag g E ∧
    Dag.DSep E 0 4 [3] ∧ g.areNodesDSeparatedDag exOrd 5 0 4 [.node 3] = .ok false := by
  refine ⟨exTwoColliders, exTwoE, ⟨_, rfl⟩, exTwoColliders_dag, ?_, by decide +kernel⟩
  intro p hp
  have hg : Reachable exTwoColliders := ⟨_, rfl⟩
  have hps := allPaths_exact hg.wf (u := 0) (by decide +kernel) 4
  obtain ⟨ps, h1, _, h3⟩ := hps
  have h1 := h1 5 (by decide +kernel)
  have hp5 : exTwoColliders.allPaths 5 0 4 = some [[0, 1, 2, 3, 4]] := by decide +kernel
  rw [hp5] at h1
  injection h1 with h1
  have := (h3 p).2 ((exTwoColliders_dag.path hg.wf).2 hp)
  rw [← h1, List.mem_singleton] at this
  subst this
  refine ⟨0, 1, 2, ⟨[], [3, 4], rfl⟩, Or.inl ⟨⟨by simp [exTwoE], by simp [exTwoE]⟩, ?_⟩⟩
  intro d hd
  rcases Relation.ReflTransGen.cases_head hd with rfl | ⟨c, hc, _⟩
  · simp
  · simp [exTwoE] at hc

/-- True answers do occur: 0 and 4 given nothing, and given {1} -/
example : exTwoColliders.areNodesDSeparatedDag exOrd 5 0 4 [] = .ok true ∧
    exTwoColliders.areNodesDSeparatedDag exOrd 5 0 4 [.node 1] = .ok true ∧
    exTwoColliders.areNodesDSeparatedDag exOrd 5 0 2 [.node 1] = .ok false := by decide +kernel

/-- the hypothesis of `C16_dsep_single_collider` is met by a pair joined by a path with a collider -/
example : AtMostOneCollider exTwoE 0 2 ∧ ∃ p, Dag.IsPath exTwoE 0 2 p := by
  have hg : Reachable exTwoColliders := ⟨_, rfl⟩
  obtain ⟨ps, h1, _, h3⟩ := allPaths_exact hg.wf (u := 0) (by decide +kernel) 2
  have h1 := h1 5 (by decide +kernel)
  rw [show exTwoColliders.allPaths 5 0 2 = some [[0, 1, 2]] by decide +kernel] at h1
  injection h1 with h1
  subst h1
  constructor
  · intro p hp a b c a' b' c' i1 i2 _ _
    have := (h3 p).2 ((exTwoColliders_dag.path hg.wf).2 hp)
    rw [List.mem_singleton] at this
    subst this
    have e1 := i1.eq_of_length rfl
    have e2 := i2.eq_of_length rfl
    rw [← e2] at e1
    simp only [List.cons.injEq] at e1
    exact e1.2.1
  · exact ⟨[0, 1, 2], (exTwoColliders_dag.path hg.wf).1 ((h3 _).1 (by simp))⟩

/-! ## C17 -/

/-- C17: a True answer of `are_nodes_d_separated_cpdag` means that every path is of definite status and
blocked. -/
theorem C17_dsep_cpdag_sound (g : Graph ι δ) (hg : Reachable g) (ord : List ι → List ι) (hord : SetOrder ord)
    (fuel : Nat) (hf : g.nodes.length ≤ fuel) (u v : ι) (hu : u ∈ g.nodes) (Z : List ι) :
    ∃ b, g.areNodesDSeparatedCpdag ord fuel u v (Z.map Ref.node) = .ok b ∧
      (b = true → ∀ p, SimplePath g u v p → DefiniteStatus g p ∧ DefinitelyBlocked g Z p) := by
  have h := hg.wf
  obtain ⟨ps, h1, h2⟩ := cpdag_answer (v := v) h hord hf hu (cs := Z.map Ref.node) (by simp)
  refine ⟨_, h2, ?_⟩
  intro hall p hp
  rw [← h1] at hp
  rw [List.all_eq_true] at hall
  have hb := hall p hp
  unfold cpdagBlocked at hb
  rw [Bool.and_eq_true, Bool.or_eq_true, beq_iff_eq] at hb
  refine ⟨(definiteStatus_iff p).1 hb.1, ?_⟩
  rcases hb.2 with hb | hb
  · obtain ⟨a, b, c, hi, hc, hd⟩ := (definiteNonCollider_iff _ p).1 hb
    exact ⟨a, b, c, hi, Or.inr ⟨hc, by simpa using hd⟩⟩
  · rcases colliderGo_true h hord hf _ p false hb with hx | ⟨a, b, c, hi, hc, hd⟩
    · cases hx
    · exact ⟨a, b, c, hi, Or.inl ⟨hc, fun d hd' => by simpa using hd d hd'⟩⟩

/-- the undirected chain 0 – 1 – 2 -/
def exChain : Graph Nat Nat := Cmd.runAll [.addNode 0, .addNode 1, .addNode 2,
  .addEdge 0 1 0 .undirected, .addEdge 1 2 0 .undirected] Graph.empty

example : exChain.areNodesDSeparatedCpdag exOrd 3 0 2 [.node 1] = .ok true ∧
    exChain.areNodesDSeparatedCpdag exOrd 3 0 2 [] = .ok false := by decide +kernel

/-! ## C18 -/

/-- C18, what holds: conditioning elements given as ids are ignored (the answer is that of the `Node`
objects alone) unless they are `u` or `v`, and only ids of `u` and `v` are rejected. -/
theorem C18_ids_ignored_partial (g : Graph ι δ) (ord : List ι → List ι) (fuel : Nat)
    (u v : ι) (cs cs' : List (Ref ι)) (hnodes : ∀ a, Ref.node a ∈ cs ↔ Ref.node a ∈ cs')
    (h1 : Ref.id u ∉ cs ∧ Ref.id v ∉ cs) (h2 : Ref.id u ∉ cs' ∧ Ref.id v ∉ cs') :
    g.areNodesDSeparatedDag ord fuel u v cs = g.areNodesDSeparatedDag ord fuel u v cs' ∧
    g.areNodesDSeparatedCpdag ord fuel u v cs = g.areNodesDSeparatedCpdag ord fuel u v cs' := by
  have hd : ∀ a, decide (Ref.node a ∈ cs) = decide (Ref.node a ∈ cs') := fun a => by simp [hnodes]
  have e1 : ∀ p acc, colliderBlockingGo g ord fuel cs acc p = colliderBlockingGo g ord fuel cs' acc p := by
    intro p
    induction p with
    | nil => intro acc; rfl
    | cons a p ih =>
      intro acc
      match p, ih with
      | [], _ => rfl
      | [b], _ => rfl
      | b :: c :: rest, ih =>
        rw [colliderBlockingGo, colliderBlockingGo]
        simp only [hd]
        split
        · cases g.descendantsOfNode ord fuel b with
          | none => rfl
          | some ds => exact ih _
        · exact ih _
  have e2 : ∀ p, g.isANonColliderInConditioningSet cs p = g.isANonColliderInConditioningSet cs' p := by
    intro p
    rw [Bool.eq_iff_iff, nonCollider_iff, nonCollider_iff]
    simp only [hnodes]
  have e3 : ∀ p, g.isDefiniteNoncolliderInConditioningSet cs p = g.isDefiniteNoncolliderInConditioningSet cs' p := by
    intro p
    rw [Bool.eq_iff_iff, definiteNonCollider_iff, definiteNonCollider_iff]
    simp only [hnodes]
  unfold areNodesDSeparatedDag areNodesDSeparatedCpdag isAColliderBlocking
  rw [if_neg (by simp [h1]), if_neg (by simp [h2]), if_neg (by simp [h1]), if_neg (by simp [h2])]
  simp only [e1, e2, e3, and_self]

/-- C18: ValueError is raised exactly when the id of `u` or `v` occurs in the set as a string. -/
theorem C18_rejection (g : Graph ι δ) (hg : Reachable g) (ord : List ι → List ι) (hord : SetOrder ord)
    (fuel : Nat) (hf : g.nodes.length ≤ fuel) (u v : ι) (hu : u ∈ g.nodes) (cs : List (Ref ι)) :
    (g.areNodesDSeparatedDag ord fuel u v cs = .error .valueError ↔ Ref.id u ∈ cs ∨ Ref.id v ∈ cs) ∧
    (g.areNodesDSeparatedCpdag ord fuel u v cs = .error .valueError ↔ Ref.id u ∈ cs ∨ Ref.id v ∈ cs) := by
  by_cases hc : Ref.id u ∈ cs ∨ Ref.id v ∈ cs
  · simp [areNodesDSeparatedDag, areNodesDSeparatedCpdag, hc]
  · obtain ⟨_, _, h1⟩ := dag_answer hg.wf hord hf hu hc
    obtain ⟨_, _, h2⟩ := cpdag_answer hg.wf hord hf hu hc
    rw [h1, h2]
    simp [hc]

/-- C18, negation: on 0 → 1 → 2 the two spellings of the set {1} give different answers, and the set
containing the node object 0 is accepted. -/
theorem C18_ids_and_nodes_differ : ∃ g : Graph Nat Nat, Reachable g ∧
    g.areNodesDSeparatedDag exOrd 3 0 2 [.node 1] = .ok true ∧
    g.areNodesDSeparatedDag exOrd 3 0 2 [.id 1] = .ok false ∧
    g.areNodesDSeparatedDag exOrd 3 0 2 [.node 0] = .ok false ∧
    g.areNodesDSeparatedDag exOrd 3 0 2 [.id 0] = .error .valueError :=
  ⟨Cmd.runAll [.addNode 0, .addNode 1, .addNode 2, .addDirectedEdge 0 1 0 .directed,
    .addDirectedEdge 1 2 0 .directed] Graph.empty, ⟨_, rfl⟩, by decide +kernel⟩

/-! ## C19 -/

/-- C19: on graphs without directed cycles (so without undirected edges) and without soft-deleted edges,
`directed_path_exists(u, v)` terminates and decides reachability for every `u` that ever had an edge.
Missing for the full claim: see the three negative theorems. -/
theorem C19_directed_path_exists_partial (g : Graph ι δ) (hg : Reachable g) (hp : Purged g)
    (hac : Dag.Acyclic (Live g)) (u v : ι) (hu : g.edges.has u = true) (fuel : Nat) (hf : g.nodes.length < fuel) :
    ∃ b, g.directedPathExists v fuel u = .ok b ∧ (b = true ↔ Relation.TransGen (Live g) u v) := by
  obtain ⟨rk, h1, h2⟩ := exists_rank hac (l := g.nodes) live_mem_nodes
  exact directedPathExists_spec hg.wf hp v rk h2 fuel u (by have := h1 u; omega) hu

/-- C19, every graph: whenever `directed_path_exists(u, v)` answers, it has decided whether a node that can be reached from `u`
over stored edges, soft-deleted or not, has a live edge to `v`.  -/
theorem C19_answers (g : Graph ι δ) (hg : Reachable g) (u v : ι) (fuel : Nat) (b : Bool)
    (h : g.directedPathExists v fuel u = .ok b) :
    b = true ↔ ∃ w, Relation.ReflTransGen (Stored g) u w ∧ Live g w v :=
  directedPathExists_answers hg.wf v fuel u b h

/-- C19, every graph without soft-deleted edges: whenever `directed_path_exists` answers, the answer is right, with directed
cycles and undirected edges too. -/
theorem C19_answers_right (g : Graph ι δ) (hg : Reachable g) (hp : Purged g) (u v : ι) (fuel : Nat) (b : Bool)
    (h : g.directedPathExists v fuel u = .ok b) : b = true ↔ Relation.TransGen (Live g) u v := by
  have hs : ∀ a b, Stored g a b ↔ Live g a b := fun a b => stored_iff_live hg.wf hp
  have he : Stored g = Live g := funext fun a => funext fun b => propext (hs a b)
  rw [C19_answers g hg u v fuel b h, he, Relation.TransGen.tail'_iff]

/-- C19, termination on every graph: for a node that ever had an edge the query answers, unless a cycle of stored edges can be
reached from it. -/
theorem C19_terminates (g : Graph ι δ) (hg : Reachable g) (u v : ι) (hu : g.edges.has u = true)
    (hac : ¬ ∃ w, Relation.ReflTransGen (Stored g) u w ∧ Relation.TransGen (Stored g) w w) (fuel : Nat)
    (hf : g.nodes.length < fuel) : ∃ b, g.directedPathExists v fuel u = .ok b := by
  obtain ⟨rk, h1, h2⟩ := exists_rank (R := fun a b => Relation.ReflTransGen (Stored g) u a ∧ Stored g a b)
    (acyclic_reached hac) (l := g.nodes) (fun a b h => stored_mem_nodes hg.wf h.2)
  exact directedPathExists_ends hg.wf v u rk (fun a b ha hab => h2 a b ⟨ha, hab⟩) fuel u .refl (by have := h1 u; omega) hu

/-- an answer on a graph with an undirected edge, as in `C19_answers_right`: over 1 - 0 -> 2 -/
example : (Cmd.runAll [.addNode 0, .addNode 1, .addNode 2, .addEdge 0 1 0 .undirected, .addDirectedEdge 0 2 0 .directed]
    (Graph.empty : Graph Nat Nat)).directedPathExists 2 5 1 = .ok true := by decide +kernel

/-- C19, the exact termination: with an answer `False`, no cycle of stored edges can be reached. -/
theorem C19_false_no_cycle (g : Graph ι δ) (hg : Reachable g) (u v : ι) (fuel : Nat) (h : g.directedPathExists v fuel u = .ok false) :
    ¬ ∃ w, Relation.ReflTransGen (Stored g) u w ∧ Relation.TransGen (Stored g) w w :=
  directedPathExists_false_no_cycle v fuel u h

/-- C19: a node that never had an edge makes the query raise KeyError. -/
theorem C19_isolated_raises (g : Graph ι δ) (hg : Reachable g) (u v : ι) (hu : g.edges.has u = false) (fuel : Nat) :
    g.directedPathExists v (fuel + 1) u = .error .keyError := by
  have hn : g.edges.get? u = none := by
    cases hx : g.edges.get? u with
    | none => rfl
    | some r => simp [Dict.has, hx] at hu
  have hd : g.directedEdgeExists u v = false := by
    rw [Bool.eq_false_iff]
    intro hd
    obtain ⟨row, hr, _⟩ := mem_row_of_directed hg.wf hd
    rw [hn] at hr; cases hr
  unfold directedPathExists
  rw [hd, hn]
  rfl

/-- C19, negation: a soft-deleted edge is followed. -/
theorem C19_follows_soft_deleted : ∃ g : Graph Nat Nat, Reachable g ∧ g.directedPathExists 2 3 0 = .ok true ∧
    ¬ Relation.TransGen (Live g) 0 2 := by
  refine ⟨Cmd.runAll [.addNode 0, .addNode 1, .addNode 2, .addDirectedEdge 0 1 0 .directed,
    .addDirectedEdge 1 2 0 .directed, .removeDirectedEdge 0 1 true] Graph.empty, ⟨_, rfl⟩, by decide +kernel, ?_⟩
  intro h
  obtain ⟨w, hw, _⟩ := Relation.TransGen.head'_iff.1 h
  unfold Live at hw
  have hn := (directed_mem_nodes hw).2
  have hnodes : (Cmd.runAll [.addNode 0, .addNode 1, .addNode 2, .addDirectedEdge 0 1 0 .directed,
    .addDirectedEdge 1 2 0 .directed, .removeDirectedEdge 0 1 true] (Graph.empty : Graph Nat Nat)).nodes = [0, 1, 2] := by
    decide +kernel
  rw [hnodes] at hn
  simp only [List.mem_cons, List.not_mem_nil, or_false] at hn
  rcases hn with rfl | rfl | rfl
  · revert hw; decide +kernel
  · revert hw; decide +kernel
  · revert hw; decide +kernel

/-- C19 and C20, negation: with an undirected edge the searches never terminate, whatever the recursion
depth. -/
theorem C19_diverges : ∃ g : Graph Nat Nat, Reachable g ∧ g.edgeExists 0 1 = true ∧
    ∀ fuel, g.directedPathExists 2 fuel 0 = .error .recursionError ∧
      g.directedPaths 2 fuel 0 = .error .recursionError := by
  refine ⟨Cmd.runAll [.addNode 0, .addNode 1, .addNode 2, .addEdge 0 1 0 .undirected] Graph.empty, ⟨_, rfl⟩,
    by decide +kernel, ?_⟩
  generalize hg : Cmd.runAll [.addNode 0, .addNode 1, .addNode 2, .addEdge 0 1 0 .undirected]
    (Graph.empty : Graph Nat Nat) = g
  have r0 : (g.edges.get? 0).map Dict.keys = some [1] := by rw [← hg]; decide +kernel
  have r1 : (g.edges.get? 1).map Dict.keys = some [0] := by rw [← hg]; decide +kernel
  have d0 : g.directedEdgeExists 0 2 = false := by rw [← hg]; decide +kernel
  have d1 : g.directedEdgeExists 1 2 = false := by rw [← hg]; decide +kernel
  have d2 : g.directedEdgeExists 0 1 = true := by rw [← hg]; decide +kernel
  have d3 : g.directedEdgeExists 1 0 = true := by rw [← hg]; decide +kernel
  have hn : 0 ∈ g.nodes ∧ 1 ∈ g.nodes := by rw [← hg]; decide +kernel
  obtain ⟨w0, e0, k0⟩ := Option.map_eq_some_iff.1 r0
  obtain ⟨w1, e1, k1⟩ := Option.map_eq_some_iff.1 r1
  have key : ∀ fuel, (g.directedPathExists 2 fuel 0 = .error .recursionError ∧
      g.directedPathExists 2 fuel 1 = .error .recursionError) ∧
      (g.directedPaths 2 fuel 0 = .error .recursionError ∧ g.directedPaths 2 fuel 1 = .error .recursionError) := by
    intro fuel
    induction fuel with
    | zero => exact ⟨⟨rfl, rfl⟩, rfl, rfl⟩
    | succ f ih =>
      simp only [directedPathExists, directedPaths, d0, d1, e0, e1, k0, k1, anyPath, pathsLoop, d2, d3, hn, ih,
        Bool.false_eq_true, if_false, not_true_eq_false, if_true, and_self]
  exact fun fuel => ⟨(key fuel).1.1, (key fuel).2.1⟩

/-- the hypotheses of the positive theorem are met by a DAG with a path -/
example : exTwoColliders.directedPathExists 1 6 0 = .ok true ∧ exTwoColliders.directedPathExists 4 6 0 = .ok false := by
  decide +kernel

/-! ## C20 -/

/-- C20: every returned sequence is a directed path from `u` to `v`, on every graph. -/
theorem C20_directed_paths_sound (g : Graph ι δ) (hg : Reachable g) (u v : ι) (fuel : Nat)
    (ps : List (List (ι × ι))) (h : g.directedPaths v fuel u = .ok ps) : ∀ p ∈ ps, IsDirPath g v u p :=
  fun p hp => ((directedPaths_mem hg.wf v fuel u ps h p).1 hp).1

/-- C20, what holds of completeness: on graphs without directed cycles the call terminates for every `u`
that ever had an edge, and returns exactly the directed paths none of whose earlier nodes has a direct edge
to `v`. -/
theorem C20_directed_paths_exact_partial (g : Graph ι δ) (hg : Reachable g) (hac : Dag.Acyclic (Live g)) (u v : ι)
    (hu : g.edges.has u = true) (fuel : Nat) (hf : g.nodes.length < fuel) :
    ∃ ps, g.directedPaths v fuel u = .ok ps ∧
      ∀ p, p ∈ ps ↔ IsDirPath g v u p ∧ ∀ e ∈ p.dropLast, ¬ Live g e.1 v := by
  obtain ⟨rk, h1, h2⟩ := exists_rank hac (l := g.nodes) live_mem_nodes
  obtain ⟨ps, hps⟩ := directedPaths_total hg.wf v rk h2 fuel u (by have := h1 u; omega) hu
  exact ⟨ps, hps, directedPaths_mem hg.wf v fuel u ps hps⟩

/-- C20: an unknown start node raises AttributeError, one that never had an edge KeyError. -/
theorem C20_raises (g : Graph ι δ) (hg : Reachable g) (u v : ι) (hu : g.edges.has u = false) (fuel : Nat) :
    (u ∉ g.nodes → g.directedPaths v (fuel + 1) u = .error .attributeError) ∧
    (u ∈ g.nodes → g.directedPaths v (fuel + 1) u = .error .keyError) := by
  have hn : g.edges.get? u = none := by
    cases hx : g.edges.get? u with
    | none => rfl
    | some r => simp [Dict.has, hx] at hu
  have hd : g.directedEdgeExists u v = false := by
    rw [Bool.eq_false_iff]
    intro hd
    obtain ⟨row, hr, _⟩ := mem_row_of_directed hg.wf hd
    rw [hn] at hr; cases hr
  unfold directedPaths
  constructor
  · intro h
    rw [hd, if_neg (by simp), if_pos h]
  · intro h
    rw [hd, if_neg (by simp), if_neg (by simpa using h), hn]

/-- C20, negation of completeness: on 0 → 1 → 2, 0 → 2 only the direct edge is returned. -/
theorem C20_incomplete : ∃ g : Graph Nat Nat, Reachable g ∧ g.directedPaths 2 4 0 = .ok [[(0, 2)]] ∧
    IsDirPath g 2 0 [(0, 1), (1, 2)] := by
  refine ⟨Cmd.runAll [.addNode 0, .addNode 1, .addNode 2, .addDirectedEdge 0 1 0 .directed,
    .addDirectedEdge 1 2 0 .directed, .addDirectedEdge 0 2 0 .directed] Graph.empty, ⟨_, rfl⟩, by decide +kernel, ?_⟩
  exact ⟨rfl, by unfold Live; decide +kernel, rfl, by unfold Live; decide +kernel⟩

/-- two directed paths without a direct edge are both found -/
example : (Cmd.runAll [.addNode 0, .addNode 1, .addNode 2, .addNode 3, .addDirectedEdge 0 1 0 .directed,
    .addDirectedEdge 0 2 0 .directed, .addDirectedEdge 1 3 0 .directed, .addDirectedEdge 2 3 0 .directed]
    (Graph.empty : Graph Nat Nat)).directedPaths 3 5 0 = .ok [[(0, 1), (1, 3)], [(0, 2), (2, 3)]] := by
  decide +kernel

end Verif
