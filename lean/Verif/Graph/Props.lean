import Verif.Graph.Lemmas4

/-!
# Properties C01–C13: the graph store

`Reachable g` means: `g` is the state after any finite history of `GraphManager` calls with any
arguments, where exceptions are caught by the caller.  Nothing else is assumed about `g`.
-/

namespace Verif
open Graph
variable {ι δ : Type} [DecidableEq ι]

/-! ## C01 -/

/-- C01: no self loops, no dangling endpoints, no duplicates, in any reachable state. -/
theorem C01_edits_wellformed (g : Graph ι δ) (hg : Reachable g) :
    (∀ u, g.edgeExists u u = false) ∧
    (∀ u v e, g.getEdge u v = .ok e → u ∈ g.nodes ∧ v ∈ g.nodes ∧ u ≠ v ∧ e.u = u ∧ e.v = v) ∧
    (g.storedList.map (fun t => (t.1, t.2.1))).Nodup ∧
    (∀ t ∈ g.storedList, t.1 ∈ g.nodes ∧ t.2.1 ∈ g.nodes ∧ t.1 ≠ t.2.1 ∧ t.2.2.u = t.1 ∧ t.2.2.v = t.2.1) := by
  have h := hg.wf
  have key : ∀ u v e, g.edges.get2 u v = some e →
      u ∈ g.nodes ∧ v ∈ g.nodes ∧ u ≠ v ∧ e.u = u ∧ e.v = v := by
    intro u v e he
    have h1 := h.edge u v e he
    have h2 := h.edge_nodes he
    exact ⟨h2.1, h2.2, h1.2.2.1, h1.1, h1.2.1⟩
  refine ⟨?_, ?_, nodup_storedPairs g, ?_⟩
  · intro u
    rw [edgeExists_eq h]
    cases hl : g.live u u with
    | false => rfl
    | true => exact absurd rfl (h.live_ne hl)
  · intro u v e he
    apply key
    unfold getEdge at he
    split at he
    · cases he
    · split at he
      · cases he
      · rename_i e' he'; injection he with he; rw [he', he]
  · rintro ⟨u, v, e⟩ ht
    exact key u v e ((mem_storedList g u v e).1 ht)

/-- A non-trivial reachable state: two nodes joined by an undirected edge, the direction `1 → 0`
removed, then purged. -/
example : let cs : List (Cmd Nat Nat) := [.addNode 0, .addNode 1, .addEdge 0 1 7 .undirected,
      .removeDirectedEdge 1 0 true, .addEdge 0 0 1 .undirected, .purge]
    (Cmd.runAll cs Graph.empty).directedEdgeExists 0 1 = true ∧
    (Cmd.runAll cs Graph.empty).directedEdgeExists 1 0 = false ∧
    (Cmd.runAll cs Graph.empty).storedList.length = 1 := by decide +kernel

/-! ## C02 -/

/-- C02: without one-way hard removals, `parents_of_node(v)` is exactly the set of `u` with
`directed_edge_exists(u, v)`, each once; it raises `KeyError` only for nodes that never had an edge,
which then have no parent. -/
theorem C02_parents_exact_partial (g : Graph ι δ) (hg : ReachableClean g) (v : ι) :
    (∃ l, g.parentsOfNode v = .ok l ∧ l.Nodup ∧ ∀ u, u ∈ l ↔ g.directedEdgeExists u v = true) ∨
    (g.parentsOfNode v = .error .keyError ∧ ∀ u, g.edgeExists u v = false) := by
  have h := hg.reachable.wf
  have hr := hg.revExact
  rw [parentsOfNode_eq h]
  cases hv : g.edges.has v with
  | false =>
    right
    refine ⟨by simp, ?_⟩
    intro u
    rw [edgeExists_eq h]
    have h1 : g.live v u = false := by
      cases hl : g.live v u with
      | false => rfl
      | true =>
        obtain ⟨e, he, _⟩ := live_iff.1 hl
        rw [get2_isSome_has he] at hv; cases hv
    have h2 : g.live u v = false := by
      cases hl : g.live u v with
      | false => rfl
      | true =>
        obtain ⟨e, he, _⟩ := live_iff.1 hl
        rw [(h.edge u v e he).2.2.2.1] at hv; cases hv
    simp [h1, h2]
  | true =>
    left
    refine ⟨_, by simp only [if_true]; rfl, ?_, ?_⟩
    · exact (Dict.nodup_keys2 _ _).filter _
    · intro u
      rw [List.mem_filter, ← Dict.has2_iff_mem_keys2, directedEdgeExists_eq h]
      unfold Dict.has2
      rw [hr u v, softDeleted_eq]
      unfold live
      cases g.edges.get2 u v <;> simp

/-- In every reachable state, one-way hard removals included, no live parent is missing from the list. -/
theorem C02_parents_complete (g : Graph ι δ) (hg : Reachable g) (u v : ι)
    (he : g.directedEdgeExists u v = true) : ∃ l, g.parentsOfNode v = .ok l ∧ u ∈ l := by
  have h := hg.wf
  rw [directedEdgeExists_eq h] at he
  obtain ⟨e, he, hd⟩ := live_iff.1 he
  have h1 := h.edge u v e he
  rw [parentsOfNode_eq h, if_pos h1.2.2.2.1]
  refine ⟨_, rfl, ?_⟩
  rw [List.mem_filter, ← Dict.has2_iff_mem_keys2]
  refine ⟨has2_iff.2 ⟨e, h1.2.2.2.2⟩, ?_⟩
  rw [softDeleted_eq, he]; simp [hd]

/-- C02 does not hold for all histories: a hard `remove_edge` on a one-way edge leaves a ghost parent. -/
theorem C02_ghost_parent : ∃ g : Graph Nat Nat, Reachable g ∧
    g.parentsOfNode 1 = .ok [0] ∧ g.edgeExists 0 1 = false :=
  ⟨_, ⟨[.addNode 0, .addNode 1, .addDirectedEdge 0 1 7 .directed, .removeEdge 0 1 false], rfl⟩,
    by decide +kernel, by decide +kernel⟩

example : ReachableClean (Cmd.runAll ([.addNode 0, .addNode 1, .addNode 2, .addEdge 0 1 7 .undirected,
      .addDirectedEdge 2 1 3 .directed, .removeEdge 0 1 false] : List (Cmd Nat Nat)) Graph.empty) := by
  refine ⟨_, ?_, rfl⟩
  refine ⟨?_, ?_, ?_, ?_, ?_, ?_, trivial⟩ <;> rintro ⟨u, v, hc, hne⟩ <;> cases hc
  exact hne (by decide +kernel)

/-! ## C03 -/

/-- C03: the four edge queries agree with each other, in any graph value whatsoever. -/
theorem C03_queries_agree (g : Graph ι δ) (u v : ι) :
    (g.edgeExists u v = g.edgeExists v u) ∧
    (g.undirectedEdgeExists u v = g.undirectedEdgeExists v u) ∧
    (g.edgeExists u v = true ↔ g.directedEdgeExists u v = true ∨ g.directedEdgeExists v u = true) ∧
    (g.undirectedEdgeExists u v = true ↔ g.directedEdgeExists u v = true ∧ g.directedEdgeExists v u = true) ∧
    (g.onlyDirectedEdgeExists u v = true ↔ g.directedEdgeExists u v = true ∧ g.directedEdgeExists v u = false) ∧
    -- exactly one of: nothing, only u → v, only v → u, undirected
    ([!g.edgeExists u v, g.onlyDirectedEdgeExists u v, g.onlyDirectedEdgeExists v u,
      g.undirectedEdgeExists u v].count true = 1) := by
  have hd : ∀ a b, g.directedEdgeExists a b =
      (decide (a ∈ g.nodes) && decide (b ∈ g.nodes) && g.edges.has2 a b && !g.softDeleted a b) := by
    intro a b
    unfold directedEdgeExists
    by_cases h1 : a ∈ g.nodes
    · by_cases h2 : b ∈ g.nodes
      · cases h3 : g.edges.has2 a b with
        | false => simp
        | true =>
          have : g.edges.has a = true := Dict.has_of_has2 h3
          cases h4 : g.softDeleted a b <;> simp [h1, h2, this]
      · simp [h2]
    · simp [h1]
  have he : ∀ a b, g.edgeExists a b = (g.directedEdgeExists a b || g.directedEdgeExists b a) := by
    intro a b
    rw [hd, hd]
    unfold edgeExists
    by_cases h1 : a ∈ g.nodes
    · by_cases h2 : b ∈ g.nodes
      · cases g.edges.has2 a b <;> cases g.edges.has2 b a <;> cases g.softDeleted a b <;>
          cases g.softDeleted b a <;> simp [h1, h2]
      · simp [h2]
    · simp [h1]
  unfold undirectedEdgeExists onlyDirectedEdgeExists
  rw [he u v, he v u]
  cases g.directedEdgeExists u v <;> cases g.directedEdgeExists v u <;> decide +kernel

/-! ## C04 -/

/-- C04: a successful edit changes the live edges exactly as the same operation on a plain set of
ordered pairs. -/
theorem C04_edit_effect (g : Graph ι δ) (hg : Reachable g) (c : Cmd ι δ) (hok : (c.run g).1 = .ok ())
    (a b : ι) :
    (c.run g).2.directedEdgeExists a b = true ↔ specEdges c (fun a b => g.directedEdgeExists a b = true) a b := by
  have h := hg.wf
  rw [directedEdgeExists_eq (run_wf h c)]
  have : (fun a b => g.directedEdgeExists a b = true) = (fun a b => g.live a b = true) := by
    funext a b; rw [directedEdgeExists_eq h]
  rw [this]
  exact run_live h c hok a b

/-- C04 for whole histories: if every call succeeds, the live edges are those of the set model. -/
theorem C04_history_effect (cs : List (Cmd ι δ)) (hs : AllSucceed cs (Graph.empty : Graph ι δ)) (a b : ι) :
    (Cmd.runAll cs Graph.empty).directedEdgeExists a b = true ↔
      (cs.foldl (fun L c => specEdges c L) (fun _ _ => False)) a b := by
  have key : ∀ (cs : List (Cmd ι δ)) (g : Graph ι δ) (L : ι → ι → Prop), Reachable g → AllSucceed cs g →
      (∀ a b, g.directedEdgeExists a b = true ↔ L a b) →
      ∀ a b, (Cmd.runAll cs g).directedEdgeExists a b = true ↔ (cs.foldl (fun L c => specEdges c L) L) a b := by
    intro cs
    induction cs with
    | nil => intro g L _ _ hL; exact hL
    | cons c cs ih =>
      intro g L hg hs hL
      refine ih (c.run g).2 (specEdges c L) (hg.run c) hs.2 ?_
      intro a b
      rw [C04_edit_effect g hg c hs.1]
      have : (fun a b => g.directedEdgeExists a b = true) = L := by
        funext a b; exact propext (hL a b)
      rw [this]
  refine key cs Graph.empty _ ⟨[], rfl⟩ hs ?_ a b
  intro a b
  simp [directedEdgeExists, Graph.empty]

example : AllSucceed ([.addNode 0, .addNode 1, .addEdge 0 1 7 .undirected, .removeDirectedEdge 1 0 true,
    .purge, .restoreDirectedEdge 1 0, .removeEdge 0 1 false, .restoreEdge 0 1] : List (Cmd Nat Nat)) Graph.empty := by
  refine ⟨?_, ?_, ?_, ?_, ?_, ?_, ?_, ?_, trivial⟩ <;> decide +kernel

/-! ## C05 -/

/-- C05: purging never raises, changes no query, removes all soft-deleted entries and is idempotent. -/
theorem C05_purge_invisible (g : Graph ι δ) (hg : Reachable g) :
    (purge g).1 = .ok () ∧
    (∀ u v, (purge g).2.directedEdgeExists u v = g.directedEdgeExists u v) ∧
    (∀ u v, (purge g).2.edgeExists u v = g.edgeExists u v) ∧
    (∀ u v, (purge g).2.undirectedEdgeExists u v = g.undirectedEdgeExists u v) ∧
    (purge g).2.retrieveEdges = g.retrieveEdges ∧
    (∀ v, (purge g).2.parentsOfNode v = g.parentsOfNode v) ∧
    (purge g).2.nodes = g.nodes ∧ (purge g).2.hist = g.hist ∧
    (∀ u v e, (purge g).2.getEdge u v = .ok e → e.deleted = false) ∧
    purge (purge g).2 = (.ok (), (purge g).2) := by
  have h := hg.wf
  rw [purge_run h]
  have hp : WF0 (purgeG g) := h.purgeG
  have hd : ∀ u v, (purgeG g).directedEdgeExists u v = g.directedEdgeExists u v := by
    intro u v; rw [directedEdgeExists_eq hp, directedEdgeExists_eq h, live_purgeG]
  refine ⟨rfl, hd, ?_, ?_, ?_, ?_, nodes_purgeG, hist_purgeG, ?_, purge_of_nil softDeletedList_purgeG⟩
  · intro u v; simp only [edgeExists_eq hp, edgeExists_eq h, live_purgeG]
  · intro u v; simp only [undirectedEdgeExists, hd]
  · simp only
    rw [retrieveEdges_eq hp, retrieveEdges_eq h, storedList_purgeG, List.filter_filter]
    simp only [Bool.and_self]
  · intro v
    simp only
    rw [parentsOfNode_eq hp, parentsOfNode_eq h, purgeG_has, purgeG_keys2_rev, List.filter_filter]
    congr 2
    apply List.filter_congr
    intro n _
    rw [softDeleted_eq, softDeleted_eq, get2_purgeG]
    cases g.edges.get2 n v with
    | none => rfl
    | some e => cases hd : e.deleted <;> simp [hd]
  · intro u v e he
    unfold getEdge at he
    split at he
    · cases he
    · split at he
      · cases he
      · rename_i e' he'
        injection he with he
        subst he
        simp only [get2_purgeG] at he'
        cases hx : g.edges.get2 u v with
        | none => rw [hx] at he'; simp at he'
        | some e'' =>
          rw [hx] at he'
          cases hd : e''.deleted <;> simp [hd] at he'
          rw [← he']; exact hd

/-- C05: soft deletion followed by a purge leaves the same stored edges as outright deletion. -/
theorem C05_soft_purge_eq_hard (g : Graph ι δ) (hg : Reachable g) (hnone : ∀ u v, g.softDeleted u v = false)
    (u v : ι) :
    let soft := (purge (removeDirectedEdge u v true g).2).2
    let hard := (removeDirectedEdge u v false g).2
    soft.nodes = hard.nodes ∧ soft.edges = hard.edges ∧ soft.rev = hard.rev ∧ soft.hist = hard.hist := by
  have h := hg.wf
  have hnil : g.softDeletedList = [] := by
    cases hl : g.softDeletedList with
    | nil => rfl
    | cons p l =>
      have hm : p ∈ g.softDeletedList := by rw [hl]; exact List.mem_cons_self
      obtain ⟨e, he, hd⟩ := (mem_softDeletedList g p).1 hm
      have := hnone p.1 p.2
      rw [softDeleted_eq, he] at this
      simp [hd] at this
  simp only
  rw [removeDirectedEdge_soft_run h, removeDirectedEdge_hard_run h]
  by_cases hn : u ∉ g.nodes ∨ v ∉ g.nodes
  · rw [if_pos hn, if_pos hn]
    simp [purge_of_nil hnil]
  · rw [if_neg hn, if_neg hn]
    simp only
    have hw : WF0 (modBoth g u v (fun e => { e with deleted := true })) := h.modBoth (fun _ => ⟨rfl, rfl⟩)
    rw [purge_run hw]
    simp only
    cases he : g.edges.get2 u v with
    | none =>
      have : modBoth g u v (fun e => { e with deleted := true }) = g := by simp [modBoth, he]
      have h2 : dropG g u v = g := by simp [dropG, he]
      rw [this, h2]
      have : purgeG g = g := by
        unfold purgeG; rw [hnil]; rfl
      rw [this]; exact ⟨rfl, rfl, rfl, rfl⟩
    | some e =>
      have hmem : ∀ p, p ∈ (modBoth g u v (fun e => { e with deleted := true })).softDeletedList ↔ p = (u, v) := by
        rintro ⟨a, b⟩
        rw [mem_softDeletedList, get2_modBoth]
        by_cases hc : u = a ∧ v = b
        · obtain ⟨rfl, rfl⟩ := hc
          simp [he]
        · rw [if_neg hc]
          constructor
          · rintro ⟨e', he', hd'⟩
            have := hnone a b
            rw [softDeleted_eq] at this
            simp only at he'
            rw [he'] at this; simp [hd'] at this
          · rintro heq; injection heq with h1 h2; exact absurd ⟨h1.symm, h2.symm⟩ hc
      have hnd : (modBoth g u v (fun e => { e with deleted := true })).softDeletedList.Nodup := by
        unfold softDeletedList
        exact ((List.filter_sublist).map _).nodup (nodup_storedPairs _)
      have hlist : (modBoth g u v (fun e => { e with deleted := true })).softDeletedList = [(u, v)] := by
        generalize (modBoth g u v (fun e => { e with deleted := true })).softDeletedList = l at hmem hnd
        match l, hmem, hnd with
        | [], hmem, _ => exact absurd ((hmem (u, v)).2 rfl) (by simp)
        | [p], hmem, _ => rw [(hmem p).1 (by simp)]
        | p :: q :: l, hmem, hnd =>
          exfalso
          have h1 := (hmem p).1 (by simp)
          have h2 := (hmem q).1 (by simp)
          rw [h1, h2] at hnd
          simp at hnd
      unfold purgeG
      rw [hlist]
      have h1 : (modBoth g u v (fun e => { e with deleted := true })).edges.get2 u v
          = some { e with deleted := true } := by rw [get2_modBoth]; simp [he]
      have hr : g.rev.get2 v u = some e := (h.edge u v e he).2.2.2.2
      have hdl : dropList (modBoth g u v (fun e => { e with deleted := true })) [(u, v)] =
          dropBoth (putBoth g u v { e with deleted := true }) u v { e with deleted := true } := by
        show dropG (modBoth g u v (fun e => { e with deleted := true })) u v = _
        simp only [dropG, h1]
        rw [modBoth_of_some he]
      have hdg : dropG g u v = dropBoth g u v e := by simp only [dropG, he]
      rw [hdl, hdg]
      refine ⟨rfl, ?_, ?_, rfl⟩
      · exact Dict.del2_set2 _ _ _ _ (has2_iff.2 ⟨e, he⟩)
      · exact Dict.del2_set2 _ _ _ _ (has2_iff.2 ⟨e, hr⟩)

example : ∀ u v : Fin 3, (Cmd.runAll ([.addNode 0, .addNode 1, .addNode 2, .addEdge 0 1 7 .undirected,
    .addDirectedEdge 1 2 3 .directed] : List (Cmd (Fin 3) Nat)) Graph.empty).softDeleted u v = false := by decide +kernel

/-! ## C06 -/

/-- C06: soft removal of a live edge followed by its restoration gives back the identical graph. -/
theorem C06_soft_round_trip (g : Graph ι δ) (hg : Reachable g) (u v : ι) :
    (g.directedEdgeExists u v = true →
      restoreDirectedEdge u v (removeDirectedEdge u v true g).2 = (.ok (), g)) ∧
    (g.undirectedEdgeExists u v = true →
      restoreEdge u v (removeEdge u v true g).2 = (.ok (), g)) := by
  have h := hg.wf
  constructor
  · intro hd
    rw [directedEdgeExists_eq h] at hd
    have hn := h.live_nodes hd
    obtain ⟨e, he, _⟩ := live_iff.1 hd
    rw [removeDirectedEdge_soft_run h]
    have hn' : ¬ (u ∉ g.nodes ∨ v ∉ g.nodes) := by simp [hn]
    rw [if_neg hn']
    simp only
    have hw : WF0 (modBoth g u v (fun e => { e with deleted := true })) := h.modBoth (fun _ => ⟨rfl, rfl⟩)
    rw [restoreDirectedEdge_run hw, nodes_modBoth, if_neg hn', get2_modBoth]
    simp only [and_self, if_true, he, Option.map_some]
    rw [mark_unmark h hd]
  · intro hud
    unfold undirectedEdgeExists at hud
    rw [directedEdgeExists_eq h, directedEdgeExists_eq h, Bool.and_eq_true] at hud
    obtain ⟨h1, h2⟩ := hud
    have hn := h.live_nodes h1
    have hne := h.live_ne h1
    obtain ⟨e, he, hed⟩ := live_iff.1 h1
    obtain ⟨e', he', hed'⟩ := live_iff.1 h2
    have hn' : ¬ (u ∉ g.nodes ∨ v ∉ g.nodes) := by simp [hn]
    rw [removeEdge_soft_run h, if_neg hn']
    simp only
    have hw1 : WF0 (modBoth g u v (fun e => { e with deleted := true })) := h.modBoth (fun _ => ⟨rfl, rfl⟩)
    have hw : WF0 (modBoth (modBoth g u v (fun e => { e with deleted := true })) v u
      (fun e => { e with deleted := true })) := hw1.modBoth (fun _ => ⟨rfl, rfl⟩)
    -- the two marks commute with each other; undo the one on u → v first
    rw [restoreEdge_run, nodes_modBoth, nodes_modBoth, if_neg hn']
    have g1 : (modBoth g u v (fun e => { e with deleted := true })).edges.get2 v u = some e' := by
      rw [get2_modBoth]; simp [he', hne]
    have g2 : (modBoth g u v (fun e => { e with deleted := true })).edges.get2 u v =
        some { e with deleted := true } := by rw [get2_modBoth]; simp [he]
    have g3 : (modBoth (modBoth g u v (fun e => { e with deleted := true })) v u
      (fun e => { e with deleted := true })).edges.get2 u v = some { e with deleted := true } := by
      rw [get2_modBoth, g2]; simp [hne]
    have r1 : restoreHalf u v (modBoth (modBoth g u v (fun e => { e with deleted := true })) v u
        (fun e => { e with deleted := true })) = (.ok (), modBoth g v u (fun e => { e with deleted := true })) := by
      rw [restoreHalf_run hw (by rw [nodes_modBoth, nodes_modBoth]; exact hn.1)
        (by rw [nodes_modBoth, nodes_modBoth]; exact hn.2), g3]
      simp only
      congr 1
      rw [modBoth_of_some g3, modBoth_of_some g1, modBoth_of_some he, modBoth_of_some he']
      have hr : g.rev.get2 v u = some e := (h.edge u v e he).2.2.2.2
      have hee : ({ e with deleted := false } : Edge ι δ) = e := by cases e; simp_all
      apply Graph.ext
      · rfl
      · show ((g.edges.set2 u v _).set2 v u _).set2 u v _ = g.edges.set2 v u _
        rw [Dict.set2_comm _ u v v u _ _ hne, Dict.set2_twice]
        rw [Dict.set2_comm _ v u u v _ _ (Ne.symm hne), hee, set2_same _ _ _ _ he]
      · show ((g.rev.set2 v u _).set2 u v _).set2 v u _ = g.rev.set2 u v _
        rw [Dict.set2_comm _ v u u v _ _ (Ne.symm hne), Dict.set2_twice]
        rw [Dict.set2_comm _ u v v u _ _ hne, hee, set2_same _ _ _ _ hr]
      · rfl
      · rfl
    rw [PyM.bind_ok r1]
    have hw2 : WF0 (modBoth g v u (fun e => { e with deleted := true })) := h.modBoth (fun _ => ⟨rfl, rfl⟩)
    rw [restoreHalf_run hw2 (by rw [nodes_modBoth]; exact hn.2) (by rw [nodes_modBoth]; exact hn.1), get2_modBoth]
    simp only [and_self, if_true, he', Option.map_some]
    rw [mark_unmark h h2]

/-- C06 after a hard removal (or a purge): `restore_directed_edge` succeeds and brings back the metadata,
but the type is always DIRECTED. -/
theorem C06_hard_round_trip_partial (g : Graph ι δ) (hg : Reachable g) (u v : ι) (e : Edge ι δ)
    (hd : g.directedEdgeExists u v = true) (he : g.getEdge u v = .ok e) :
    ∃ g', restoreDirectedEdge u v (removeDirectedEdge u v false g).2 = (.ok (), g') ∧
      g'.getEdge u v = .ok { e with etype := .directed } ∧
      (∀ a b, g'.directedEdgeExists a b = g.directedEdgeExists a b) ∧
      (∀ a b, ¬ (a = u ∧ b = v) → g'.getEdge a b = g.getEdge a b) := by
  have h := hg.wf
  rw [directedEdgeExists_eq h] at hd
  have hn := h.live_nodes hd
  have hne := h.live_ne hd
  obtain ⟨e0, he0, hed⟩ := live_iff.1 hd
  have hgetE : ∀ (g : Graph ι δ) a b, g.getEdge a b =
      match g.edges.get2 a b with | some e => .ok e | none => .error .graphError := by
    intro g a b
    unfold getEdge
    cases hx : g.edges.get2 a b with
    | none => cases g.edges.has a <;> simp
    | some e => simp [get2_isSome_has hx]
  rw [hgetE, he0] at he
  injection he with he
  subst he
  have hn' : ¬ (u ∉ g.nodes ∨ v ∉ g.nodes) := by simp [hn]
  have hw : WF0 (dropG g u v) := h.dropG
  rw [removeDirectedEdge_hard_run h, if_neg hn']
  simp only
  have hdel : (dropG g u v).del.get2 u v = some e0 := by
    simp only [dropG, he0]
    show (g.del.set2 u v e0).get2 u v = some e0
    rw [Dict.get2_set2 _ _ _ _ _ _ (by rw [h.hasD]; exact get2_isSome_has he0)]
    simp
  have hnone : (dropG g u v).edges.get2 u v = none := by rw [get2_dropG]; simp
  rw [restoreDirectedEdge_run hw, nodes_dropG, if_neg hn', hnone]
  simp only [hdel]
  have hw1 : WF0 (addDirG (dropG g u v) u v e0.metadata .directed) :=
    hw.addDirG (by rw [nodes_dropG]; exact hn.1) (by rw [nodes_dropG]; exact hn.2) hne _ _
  have hget : ∀ a b, (forgetD (addDirG (dropG g u v) u v e0.metadata .directed) u v).edges.get2 a b =
      if u = a ∧ v = b then some ⟨u, v, .directed, e0.metadata, false⟩ else g.edges.get2 a b := by
    intro a b
    show (addDirG (dropG g u v) u v e0.metadata .directed).edges.get2 a b = _
    rw [get2_addDirG, get2_dropG]
    by_cases hc : u = a ∧ v = b <;> simp [hc]
  refine ⟨_, rfl, ?_, ?_, ?_⟩
  · rw [hgetE, hget]
    have hx := h.edge u v e0 he0
    simp only [and_self, if_true]
    cases e0; simp_all
  · intro a b
    rw [directedEdgeExists_eq (hw1.forgetD u v), directedEdgeExists_eq h]
    unfold live
    rw [hget]
    by_cases hc : u = a ∧ v = b
    · obtain ⟨rfl, rfl⟩ := hc; simp [he0, hed]
    · simp [hc]
  · intro a b hab
    rw [hgetE, hgetE, hget, if_neg (fun hh => hab ⟨hh.1.symm, hh.2.symm⟩)]

/-- C06 is false with edge types and metadata included: an undirected edge comes back as DIRECTED, and
`restore_edge` after a hard `remove_edge` forgets that the two directions had different data. -/
theorem C06_hard_round_trip_fails :
    (∃ g : Graph Nat Nat, Reachable g ∧ g.edgeType 0 1 = .ok (some .undirected) ∧
      (restoreDirectedEdge 0 1 (removeDirectedEdge 0 1 false g).2).1 = .ok () ∧
      (restoreDirectedEdge 0 1 (removeDirectedEdge 0 1 false g).2).2.edgeType 0 1 = .ok (some .directed)) ∧
    (∃ g : Graph Nat Nat, Reachable g ∧ g.edgeType 0 1 = .ok (some .bidirected) ∧ g.edgeValue 1 0 = .ok (some 9) ∧
      (restoreEdge 0 1 (removeEdge 0 1 false g).2).1 = .ok () ∧
      (restoreEdge 0 1 (removeEdge 0 1 false g).2).2.edgeType 0 1 = .ok (some .undirected) ∧
      (restoreEdge 0 1 (removeEdge 0 1 false g).2).2.edgeValue 1 0 = .ok (some 7)) :=
  ⟨⟨_, ⟨[.addNode 0, .addNode 1, .addEdge 0 1 7 .undirected], rfl⟩, by decide +kernel⟩,
   ⟨_, ⟨[.addNode 0, .addNode 1, .addEdge 0 1 7 .bidirected, .updateDirectedEdge 1 0 (some 9) none], rfl⟩,
     by decide +kernel⟩⟩

example : ∃ g : Graph Nat Nat, Reachable g ∧ g.directedEdgeExists 0 1 = true ∧ g.undirectedEdgeExists 1 2 = true :=
  ⟨_, ⟨[.addNode 0, .addNode 1, .addNode 2, .addDirectedEdge 0 1 7 .directed, .addEdge 1 2 8 .undirected], rfl⟩,
    by decide +kernel⟩

/-! ## C07 -/

/-- C07: every failing call other than a hard `remove_edge` and `restore_edge` leaves the graph unchanged.
Missing for the full claim: those two calls, see `C07_not_atomic`. -/
theorem C07_failing_edit_atomic_partial (g : Graph ι δ) (hg : Reachable g) (c : Cmd ι δ)
    (hc : ∀ u v, c ≠ .removeEdge u v false) (hc' : ∀ u v, c ≠ .restoreEdge u v)
    (er : PyErr) (her : (c.run g).1 = .error er) : (c.run g).2 = g :=
  run_error_eq hg.wf c hc hc' her

/-- C07, what remains true of a failing `restore_edge`: no live edge is lost, and only `u → v` may have
become live. -/
theorem C07_restore_edge_failure (g : Graph ι δ) (hg : Reachable g) (u v : ι) (er : PyErr)
    (her : (restoreEdge u v g).1 = .error er) (a b : ι) :
    (g.directedEdgeExists a b = true → (restoreEdge u v g).2.directedEdgeExists a b = true) ∧
    (¬ (a = u ∧ b = v) → (restoreEdge u v g).2.directedEdgeExists a b = g.directedEdgeExists a b) := by
  have h := hg.wf
  have hw := restoreEdge_wf h u v
  rw [directedEdgeExists_eq h, directedEdgeExists_eq hw]
  rcases restoreEdge_error h her with heq | heq
  · rw [heq]; exact ⟨id, fun _ => rfl⟩
  · rw [heq, live_modBoth]
    by_cases hc : u = a ∧ v = b
    · obtain ⟨rfl, rfl⟩ := hc
      refine ⟨?_, fun hh => absurd ⟨rfl, rfl⟩ hh⟩
      intro hl
      obtain ⟨e, he, _⟩ := live_iff.1 hl
      simp [he]
    · rw [if_neg hc]
      exact ⟨id, fun _ => rfl⟩

/-- C07, what remains true of a failing hard `remove_edge` between known nodes: afterwards the two nodes
are not joined, and all other pairs are as before. -/
theorem C07_remove_edge_failure (g : Graph ι δ) (hg : Reachable g) (u v : ι) (hu : u ∈ g.nodes)
    (hv : v ∈ g.nodes) (a b : ι) :
    (removeEdge u v false g).2.edgeExists u v = false ∧
    (¬ (a = u ∧ b = v) → ¬ (a = v ∧ b = u) →
      (removeEdge u v false g).2.directedEdgeExists a b = g.directedEdgeExists a b) := by
  have h := hg.wf
  have hw := removeEdge_wf h u v false
  rw [edgeExists_eq hw, directedEdgeExists_eq h, directedEdgeExists_eq hw]
  simp only [live_removeEdge h hu hv]
  constructor
  · simp
  · intro h1 h2
    have h1' : ¬ (u = a ∧ v = b) := fun hh => h1 ⟨hh.1.symm, hh.2.symm⟩
    have h2' : ¬ (v = a ∧ u = b) := fun hh => h2 ⟨hh.1.symm, hh.2.symm⟩
    simp [h1', h2']

/-- C07 is false for a hard `remove_edge` and for `restore_edge`: both can raise after a change. -/
theorem C07_not_atomic :
    (∃ g : Graph Nat Nat, Reachable g ∧ (removeEdge 0 1 false g).1 = .error .keyError ∧
      g.directedEdgeExists 0 1 = true ∧ (removeEdge 0 1 false g).2.directedEdgeExists 0 1 = false) ∧
    (∃ g : Graph Nat Nat, Reachable g ∧ (restoreEdge 0 1 g).1 = .error .keyError ∧
      g.directedEdgeExists 0 1 = false ∧ (restoreEdge 0 1 g).2.directedEdgeExists 0 1 = true) :=
  ⟨⟨_, ⟨[.addNode 0, .addNode 1, .addDirectedEdge 0 1 7 .directed], rfl⟩, by decide +kernel⟩,
   ⟨_, ⟨[.addNode 0, .addNode 1, .addDirectedEdge 0 1 7 .directed, .removeDirectedEdge 0 1 true], rfl⟩,
     by decide +kernel⟩⟩

/-- failing calls exist in reachable states -/
example : ∃ (g : Graph Nat Nat) (c : Cmd Nat Nat), Reachable g ∧ (c.run g).1 = .error .graphError ∧
    g.edgeExists 0 1 = true :=
  ⟨_, .updateEdge 0 1 (some 3) none,
    ⟨[.addNode 0, .addNode 1, .addDirectedEdge 0 1 7 .directed], rfl⟩, by decide +kernel, by decide +kernel⟩

/-! ## C08 -/

/-- C08 for `update_edge`. -/
theorem C08_update_edge (g : Graph ι δ) (hg : Reachable g) (u v : ι) (m : Option δ) (t : Option EType)
    (hok : (updateEdge u v m t g).1 = .ok ()) :
    let g' := (updateEdge u v m t g).2
    g'.nodes = g.nodes ∧ g'.hist = g.hist ∧ g'.del = g.del ∧
    (∀ a b, (a = u ∧ b = v) ∨ (a = v ∧ b = u) → ∃ e, g.getEdge a b = .ok e ∧
      g'.getEdge a b = .ok ⟨e.u, e.v, t.getD e.etype, m.getD e.metadata, e.deleted⟩) ∧
    (∀ a b, ¬ (a = u ∧ b = v) → ¬ (a = v ∧ b = u) → g'.getEdge a b = g.getEdge a b) := by
  have h := hg.wf
  simp only
  rw [updateEdge_run h] at hok ⊢
  split at hok
  · rename_i hc
    rw [if_pos hc]
    simp only
    have hgetE : ∀ (g : Graph ι δ) a b, g.getEdge a b =
        match g.edges.get2 a b with | some e => .ok e | none => .error .graphError := by
      intro g a b
      unfold getEdge
      cases hx : g.edges.get2 a b with
      | none => cases g.edges.has a <;> simp
      | some e => simp [get2_isSome_has hx]
    obtain ⟨_, _, h1, h2⟩ := hc
    obtain ⟨e, he⟩ := has2_iff.1 h1
    obtain ⟨e', he'⟩ := has2_iff.1 h2
    have hne : u ≠ v := (h.edge u v e he).2.2.1
    refine ⟨by simp only [nodes_modBoth], by simp only [hist_modBoth], by simp only [del_modBoth], ?_, ?_⟩
    · rintro a b (⟨rfl, rfl⟩ | ⟨rfl, rfl⟩)
      · refine ⟨e, by rw [hgetE, he], ?_⟩
        rw [hgetE]
        simp only [get2_modBoth, he]
        simp only [hne, Ne.symm hne, and_self, if_true, if_false, Option.map_some]
        cases m <;> cases t <;> rfl
      · refine ⟨e', by rw [hgetE, he'], ?_⟩
        rw [hgetE]
        simp only [get2_modBoth, he']
        simp only [hne, Ne.symm hne, and_self, if_true, if_false, Option.map_some]
        cases m <;> cases t <;> rfl
    · intro a b h1 h2
      have h1' : ¬ (u = a ∧ v = b) := fun hh => h1 ⟨hh.1.symm, hh.2.symm⟩
      have h2' : ¬ (v = a ∧ u = b) := fun hh => h2 ⟨hh.1.symm, hh.2.symm⟩
      rw [hgetE, hgetE]
      simp only [get2_modBoth, h1', h2', if_false]
  · simp at hok

/-- C08 for `update_directed_edge`. -/
theorem C08_update_directed_edge (g : Graph ι δ) (hg : Reachable g) (u v : ι) (m : Option δ) (t : Option EType)
    (hok : (updateDirectedEdge u v m t g).1 = .ok ()) :
    let g' := (updateDirectedEdge u v m t g).2
    g'.nodes = g.nodes ∧ g'.hist = g.hist ∧ g'.del = g.del ∧
    (∃ e, g.getEdge u v = .ok e ∧
      g'.getEdge u v = .ok ⟨e.u, e.v, t.getD e.etype, m.getD e.metadata, e.deleted⟩) ∧
    (∀ a b, ¬ (a = u ∧ b = v) → g'.getEdge a b = g.getEdge a b) := by
  have h := hg.wf
  simp only
  rw [updateDirectedEdge_run h] at hok ⊢
  split at hok
  · rename_i hc
    rw [if_pos hc]
    simp only
    have hgetE : ∀ (g : Graph ι δ) a b, g.getEdge a b =
        match g.edges.get2 a b with | some e => .ok e | none => .error .graphError := by
      intro g a b
      unfold getEdge
      cases hx : g.edges.get2 a b with
      | none => cases g.edges.has a <;> simp
      | some e => simp [get2_isSome_has hx]
    obtain ⟨_, _, h1⟩ := hc
    obtain ⟨e, he⟩ := has2_iff.1 h1
    refine ⟨by simp only [nodes_modBoth], by simp only [hist_modBoth], by simp only [del_modBoth], ?_, ?_⟩
    · refine ⟨e, by rw [hgetE, he], ?_⟩
      rw [hgetE]
      simp only [get2_modBoth, he]
      simp only [and_self, if_true, Option.map_some]
      cases m <;> cases t <;> rfl
    · intro a b h1
      have h1' : ¬ (u = a ∧ v = b) := fun hh => h1 ⟨hh.1.symm, hh.2.symm⟩
      rw [hgetE, hgetE]
      simp only [get2_modBoth, h1', if_false]
  · simp at hok

example : ∃ g : Graph Nat Nat, Reachable g ∧ (updateEdge 0 1 (some 5) none g).1 = .ok () ∧
    g.edgeExists 0 1 = true ∧ g.edgeExists 1 2 = true :=
  ⟨_, ⟨[.addNode 0, .addNode 1, .addNode 2, .addEdge 0 1 7 .undirected, .addEdge 1 2 8 .undirected], rfl⟩,
    by decide +kernel⟩

/-! ## C09 -/

/-- C09: for pairs joined in direction `u → v`, or not joined at all, `edge_value` and `edge_type` return
the stored value, respectively `None`.  Missing: pairs joined only in the opposite direction. -/
theorem C09_edge_accessors_partial (g : Graph ι δ) (hg : Reachable g) (u v : ι) :
    (g.edgeExists u v = false → g.edgeValue u v = .ok none ∧ g.edgeType u v = .ok none) ∧
    (g.directedEdgeExists u v = true → ∃ e, g.getEdge u v = .ok e ∧ e.deleted = false ∧
      g.edgeValue u v = .ok (some e.metadata) ∧ g.edgeType u v = .ok (some e.etype)) := by
  have h := hg.wf
  constructor
  · intro he; simp [edgeValue, edgeType, he]
  · intro hd
    rw [directedEdgeExists_eq h] at hd
    have hee : g.edgeExists u v = true := by rw [edgeExists_eq h, hd]; rfl
    obtain ⟨e, he, hed⟩ := live_iff.1 hd
    exact ⟨e, by simp [getEdge, get2_isSome_has he, he], hed, by simp [edgeValue, hee, he],
      by simp [edgeType, hee, he]⟩

/-- C09 fails for a pair joined only in the opposite direction: `KeyError` once the other direction has been
purged, data of the soft-deleted edge before. -/
theorem C09_opposite_direction_fails :
    (∃ g : Graph Nat Nat, Reachable g ∧ g.edgeExists 0 1 = true ∧ g.edgeValue 0 1 = .error .keyError ∧
      g.edgeType 0 1 = .error .keyError) ∧
    (∃ g : Graph Nat Nat, Reachable g ∧ g.directedEdgeExists 0 1 = false ∧ g.edgeValue 0 1 = .ok (some 7) ∧
      g.edgeType 0 1 = .ok (some .undirected)) :=
  ⟨⟨_, ⟨[.addNode 0, .addNode 1, .addDirectedEdge 1 0 7 .directed], rfl⟩, by decide +kernel⟩,
   ⟨_, ⟨[.addNode 0, .addNode 1, .addEdge 0 1 7 .undirected, .removeDirectedEdge 0 1 true], rfl⟩, by decide +kernel⟩⟩

/-- C09: exactly when the accessors raise. -/
theorem C09_edge_accessors_raise_iff (g : Graph ι δ) (hg : Reachable g) (u v : ι) :
    (∃ er, g.edgeValue u v = .error er) ↔
      (g.directedEdgeExists v u = true ∧ ∀ e, g.getEdge u v ≠ .ok e) := by
  have h := hg.wf
  unfold edgeValue
  rw [edgeExists_eq h, directedEdgeExists_eq h]
  unfold getEdge
  cases hx : g.edges.get2 u v with
  | none =>
    have : g.live u v = false := live_none hx
    cases hl : g.live v u <;> cases hh : g.edges.has u <;> simp [this]
  | some e =>
    cases g.live u v <;> cases g.live v u <;> simp [get2_isSome_has hx]

/-! ## C10 -/

/-- C10: `add_node` rejects a used id and changes nothing, otherwise appends. -/
theorem C10_add_node (g : Graph ι δ) (id : ι) :
    (id ∈ g.nodes → addNode id g = (.error .valueError, g)) ∧
    (id ∉ g.nodes → (addNode id g).1 = .ok () ∧ (addNode id g).2.nodes = g.nodes ++ [id] ∧
      (addNode id g).2.edges = g.edges ∧ (addNode id g).2.rev = g.rev ∧ (addNode id g).2.hist = g.hist) := by
  rw [addNode_run]
  constructor
  · intro h; simp [h]
  · intro h; simp [h]

/-- C10: ids are pairwise distinct in every reachable state, and no call moves or removes a node. -/
theorem C10_nodes_unique_and_stable (g : Graph ι δ) (hg : Reachable g) :
    g.nodes.Nodup ∧ ∀ c : Cmd ι δ, g.nodes <+: (c.run g).2.nodes := by
  refine ⟨hg.wf.nodup, ?_⟩
  intro c
  rw [run_nodes hg.wf c]
  cases c with
  | addNode id =>
    simp only
    split
    · exact List.prefix_rfl
    · exact List.prefix_append _ _
  | _ => exact List.prefix_rfl

example : (Cmd.runAll ([.addNode 3, .addNode 1, .addNode 3] : List (Cmd Nat Nat)) Graph.empty).nodes = [3, 1] := by
  decide +kernel

/-! ## C11 -/

/-- C11 for edits: the recorded history of every pair only grows at its end, over any continuation. -/
theorem C11_history_append_only (g : Graph ι δ) (hg : Reachable g) (cs : List (Cmd ι δ)) (u v : ι)
    (l : List (TestResult ι δ)) (hl : g.retrieveEdgeHistoryAll u v = .ok l) :
    ∃ l', (Cmd.runAll cs g).retrieveEdgeHistoryAll u v = .ok (l ++ l') := by
  have key : HistExtends g (Cmd.runAll cs g) := by
    have : ∀ (cs : List (Cmd ι δ)) (g : Graph ι δ), WF0 g → HistExtends g (Cmd.runAll cs g) := by
      intro cs
      induction cs with
      | nil => intro g _; exact HistExtends.refl g
      | cons c cs ih => intro g h; exact (run_hist h c).trans (ih _ (run_wf h c))
    exact this cs g hg.wf
  unfold retrieveEdgeHistoryAll at hl ⊢
  cases hx : g.hist.get? (u, v) with
  | none => rw [hx] at hl; cases hl
  | some l0 =>
    rw [hx] at hl
    injection hl with hl
    subst hl
    obtain ⟨l', hl'⟩ := key (u, v) _ hx
    exact ⟨l', by rw [hl']⟩

/-- C11: so the records of one action (for instance a separating set) stay available as well. -/
theorem C11_recorded_action_stays (g : Graph ι δ) (hg : Reachable g) (cs : List (Cmd ι δ)) (u v : ι)
    (a : Action) : g.retrieveEdgeHistory u v a <+: (Cmd.runAll cs g).retrieveEdgeHistory u v a := by
  unfold retrieveEdgeHistory
  cases hx : g.hist.get? (u, v) with
  | none => exact List.nil_prefix
  | some l =>
    obtain ⟨l', hl'⟩ := C11_history_append_only g hg cs u v l (by simp [retrieveEdgeHistoryAll, hx])
    unfold retrieveEdgeHistoryAll at hl'
    cases hy : (Cmd.runAll cs g).hist.get? (u, v) with
    | none => rw [hy] at hl'; cases hl'
    | some l2 =>
      rw [hy] at hl'
      injection hl' with hl'
      subst hl'
      simp only [List.filter_append]
      exact List.prefix_append _ _

example : let r : TestResult Nat Nat := ⟨0, 1, .removeEdgeUndirected, some 4⟩
    (Cmd.runAll ([.addNode 0, .addNode 1, .addEdge 0 1 7 .undirected, .addEdgeHistory 0 1 r,
      .removeEdge 0 1 false, .addEdge 0 1 8 .undirected] : List (Cmd Nat Nat)) Graph.empty).retrieveEdgeHistoryAll 0 1
      = .ok [r] := by decide +kernel

/-! ## C12 -/

/-- C12: `retrieve_edges` returns exactly the live edges, each once, with the stored data. -/
theorem C12_retrieve_edges_exact (g : Graph ι δ) (hg : Reachable g) :
    ∃ l, g.retrieveEdges = .ok l ∧ (l.map (fun e => (e.u, e.v))).Nodup ∧
      (∀ e ∈ l, g.directedEdgeExists e.u e.v = true ∧ g.getEdge e.u e.v = .ok e ∧ e.deleted = false) ∧
      (∀ u v, g.directedEdgeExists u v = true → ∃ e ∈ l, e.u = u ∧ e.v = v) := by
  have h := hg.wf
  refine ⟨_, retrieveEdges_eq h, ?_, ?_, ?_⟩
  · rw [List.map_map]
    have hmap : ∀ t ∈ g.storedList.filter (fun t => !t.2.2.deleted),
        ((fun e : Edge ι δ => (e.u, e.v)) ∘ fun t : ι × ι × Edge ι δ => t.2.2) t = (t.1, t.2.1) := by
      rintro ⟨a, b, e⟩ ht
      have he := (mem_storedList g a b e).1 (List.mem_of_mem_filter ht)
      have := h.edge a b e he
      simp [this.1, this.2.1]
    rw [List.map_congr_left hmap]
    exact ((List.filter_sublist).map _).nodup (nodup_storedPairs g)
  · intro e he
    simp only [List.mem_map, List.mem_filter] at he
    obtain ⟨⟨a, b, e'⟩, ⟨ht, hd⟩, rfl⟩ := he
    have he := (mem_storedList g a b e').1 ht
    have hx := h.edge a b e' he
    have hd' : e'.deleted = false := by simpa using hd
    simp only [hx.1, hx.2.1]
    refine ⟨?_, by simp [getEdge, get2_isSome_has he, he], hd'⟩
    rw [directedEdgeExists_eq h]; simp [live, he, hd']
  · intro u v hd
    rw [directedEdgeExists_eq h] at hd
    obtain ⟨e, he, hed⟩ := live_iff.1 hd
    have hx := h.edge u v e he
    refine ⟨e, ?_, hx.1, hx.2.1⟩
    simp only [List.mem_map, List.mem_filter]
    exact ⟨(u, v, e), ⟨(mem_storedList g u v e).2 he, by simp [hed]⟩, rfl⟩

example : (Cmd.runAll ([.addNode 0, .addNode 1, .addNode 2, .addEdge 0 1 7 .undirected,
    .addDirectedEdge 2 1 3 .directed, .removeDirectedEdge 0 1 true] : List (Cmd Nat Nat)) Graph.empty).retrieveEdges
    = .ok [⟨1, 0, .undirected, 7, false⟩, ⟨2, 1, .directed, 3, false⟩] := by decide +kernel

/-! ## C13 -/

/-- C13: `create_all_possible_edges` succeeds and produces the complete undirected graph, on any number of
nodes (and whatever edges were there before). -/
theorem C13_complete_graph (g : Graph ι δ) (hg : Reachable g) (m0 : δ) :
    let g' := (createAllPossibleEdges m0 g).2
    (createAllPossibleEdges m0 g).1 = .ok () ∧ g'.nodes = g.nodes ∧
    (∀ u v, g'.undirectedEdgeExists u v = true ↔ u ∈ g.nodes ∧ v ∈ g.nodes ∧ u ≠ v) ∧
    (∀ u v, g'.edgeExists u v = true ↔ u ∈ g.nodes ∧ v ∈ g.nodes ∧ u ≠ v) ∧
    (∀ u ∈ g.nodes, ∀ v ∈ g.nodes, u ≠ v → g'.getEdge u v = .ok ⟨u, v, .undirected, m0, false⟩) := by
  have h := hg.wf
  obtain ⟨g', h1, h2, h3, h4, _⟩ := createAll_spec m0 h
  simp only [h1]
  have hl : ∀ u v, g'.live u v = true ↔ u ∈ g.nodes ∧ v ∈ g.nodes ∧ u ≠ v := by
    intro u v
    constructor
    · intro hl
      have := h2.live_nodes hl
      rw [h3] at this
      exact ⟨this.1, this.2, h2.live_ne hl⟩
    · rintro ⟨a, b, c⟩
      have := h4 u a v b c
      unfold Full at this
      simp [live, this]
  refine ⟨by trivial, h3, ?_, ?_, ?_⟩
  · intro u v
    unfold undirectedEdgeExists
    rw [directedEdgeExists_eq h2, directedEdgeExists_eq h2, Bool.and_eq_true, hl, hl]
    exact ⟨fun x => x.1, fun x => ⟨x, x.2.1, x.1, Ne.symm x.2.2⟩⟩
  · intro u v
    rw [edgeExists_eq h2, Bool.or_eq_true, hl, hl]
    exact ⟨fun x => x.elim id (fun x => ⟨x.2.1, x.1, Ne.symm x.2.2⟩), Or.inl⟩
  · intro u a v b c
    have := h4 u a v b c
    unfold Full at this
    simp [getEdge, get2_isSome_has this, this]

example : ((createAllPossibleEdges 0 (Cmd.runAll ([.addNode 5, .addNode 6, .addNode 7] : List (Cmd Nat Nat))
    Graph.empty)).2.retrieveEdges.toOption.map List.length) = some 6 := by decide +kernel

end Verif
