import Verif.Rename.Spec

/-!
# Graph operations commute with a relabelling: lemmas
-/

namespace Verif

section assoc
variable {κ κ' α α' : Type} [DecidableEq κ] [DecidableEq κ'] {e : κ → κ'} (he : Function.Injective e) (φ : κ → α → α')
include he

theorem assoc_relabel (k : κ) (l : List (κ × α)) :
    assoc (e k) (l.map (fun p => (e p.1, φ p.1 p.2))) = (assoc k l).map (φ k) := by
  induction l with
  | nil => rfl
  | cons p l ih =>
    obtain ⟨k0, v0⟩ := p
    by_cases h : k0 = k
    · subst h; simp [assoc]
    · simp [assoc, h, he.eq_iff, ih]

theorem assocSet_relabel (k : κ) (v : α) (l : List (κ × α)) :
    assocSet (e k) (φ k v) (l.map (fun p => (e p.1, φ p.1 p.2))) = (assocSet k v l).map (fun p => (e p.1, φ p.1 p.2)) := by
  induction l with
  | nil => rfl
  | cons p l ih =>
    obtain ⟨k0, v0⟩ := p
    by_cases h : k0 = k
    · subst h; simp [assocSet]
    · simp [assocSet, h, he.eq_iff, ih]

theorem assocDel_relabel (k : κ) (l : List (κ × α)) :
    assocDel (e k) (l.map (fun p => (e p.1, φ p.1 p.2))) = (assocDel k l).map (fun p => (e p.1, φ p.1 p.2)) := by
  induction l with
  | nil => rfl
  | cons p l ih =>
    obtain ⟨k0, v0⟩ := p
    by_cases h : k0 = k
    · subst h; simp [assocDel]
    · simp [assocDel, h, he.eq_iff, ih]

theorem Dict.relabel_get? (d : Dict κ α) (k : κ) : (d.relabel e he φ).get? (e k) = (d.get? k).map (φ k) :=
  assoc_relabel he φ k d.items

theorem Dict.relabel_has (d : Dict κ α) (k : κ) : (d.relabel e he φ).has (e k) = d.has k := by
  unfold Dict.has
  rw [Dict.relabel_get?, Option.isSome_map]

theorem Dict.relabel_set (d : Dict κ α) (k : κ) (v : α) :
    (d.relabel e he φ).set (e k) (φ k v) = (d.set k v).relabel e he φ :=
  Dict.ext (assocSet_relabel he φ k v d.items)

theorem Dict.relabel_del (d : Dict κ α) (k : κ) : (d.relabel e he φ).del (e k) = (d.del k).relabel e he φ :=
  Dict.ext (assocDel_relabel he φ k d.items)

omit [DecidableEq κ] [DecidableEq κ'] in
theorem Dict.relabel_keys (d : Dict κ α) : (d.relabel e he φ).keys = d.keys.map e := by
  simp [Dict.keys, Dict.relabel, Function.comp_def]

end assoc

namespace Relabel
variable {ι δ ι' δ' : Type} [DecidableEq ι] [DecidableEq ι'] (M : Relabel ι δ ι' δ')

@[simp] theorem mem_map (l : List ι) (u : ι) : M.name u ∈ l.map M.name ↔ u ∈ l := by
  rw [List.mem_map]
  exact ⟨fun ⟨a, h, h'⟩ => M.inj h' ▸ h, fun h => ⟨u, h, rfl⟩⟩

@[simp] theorem name_inj (u v : ι) : M.name u = M.name v ↔ u = v := M.inj.eq_iff

@[simp] theorem name_ne (u v : ι) : M.name u ≠ M.name v ↔ u ≠ v := not_congr M.inj.eq_iff

@[simp] theorem graph_nodes (g : Graph ι δ) : (M.graph g).nodes = g.nodes.map M.name := rfl

@[simp] theorem rows_get? (d) (u : ι) : (M.rows d).get? (M.name u) = (d.get? u).map (fun r => r.relabel M.name M.inj (M.edge u)) :=
  Dict.relabel_get? M.inj _ d u

@[simp] theorem rows_get2 (d) (u v : ι) : (M.rows d).get2 (M.name u) (M.name v) = (d.get2 u v).map (M.edge u v) := by
  unfold Dict.get2
  rw [rows_get?]
  cases d.get? u with
  | none => rfl
  | some r => exact Dict.relabel_get? M.inj _ r v

@[simp] theorem rows_has (d) (u : ι) : (M.rows d).has (M.name u) = d.has u := Dict.relabel_has M.inj _ d u

@[simp] theorem rows_has2 (d) (u v : ι) : (M.rows d).has2 (M.name u) (M.name v) = d.has2 u v := by
  unfold Dict.has2
  rw [rows_get2, Option.isSome_map]

@[simp] theorem rows_keys (d) : (M.rows d).keys = d.keys.map M.name := Dict.relabel_keys M.inj _ d

@[simp] theorem rows_keys2 (d) (u : ι) : (M.rows d).keys2 (M.name u) = (d.keys2 u).map M.name := by
  unfold Dict.keys2
  rw [rows_get?]
  cases d.get? u with
  | none => rfl
  | some r => exact Dict.relabel_keys M.inj _ r

@[simp] theorem rows_set2 (d) (u v : ι) (x : Edge ι δ) :
    (M.rows d).set2 (M.name u) (M.name v) (M.edge u v x) = M.rows (d.set2 u v x) := by
  unfold Dict.set2
  rw [rows_get?]
  cases d.get? u with
  | none => rfl
  | some r =>
    rw [Option.map_some]
    dsimp only
    rw [Dict.relabel_set M.inj (M.edge u)]
    exact Dict.relabel_set M.inj (fun (u : ι) (r : Dict ι (Edge ι δ)) => r.relabel M.name M.inj (fun v => M.edge u v)) d u (r.set v x)

@[simp] theorem rows_del2 (d) (u v : ι) : (M.rows d).del2 (M.name u) (M.name v) = M.rows (d.del2 u v) := by
  unfold Dict.del2
  rw [rows_get?]
  cases d.get? u with
  | none => rfl
  | some r =>
    rw [Option.map_some]
    dsimp only
    rw [Dict.relabel_del M.inj (M.edge u)]
    exact Dict.relabel_set M.inj (fun (u : ι) (r : Dict ι (Edge ι δ)) => r.relabel M.name M.inj (fun v => M.edge u v)) d u (r.del v)

@[simp] theorem rows_set_empty (d) (u : ι) : (M.rows d).set (M.name u) Dict.empty = M.rows (d.set u Dict.empty) :=
  Dict.relabel_set M.inj (fun (u : ι) (r : Dict ι (Edge ι δ)) => r.relabel M.name M.inj (fun v => M.edge u v)) d u Dict.empty

@[simp] theorem hist_get? (g : Graph ι δ) (u v : ι) :
    (M.graph g).hist.get? (M.name u, M.name v) = (g.hist.get? (u, v)).map (List.map M.result) :=
  Dict.relabel_get? (e := fun p : ι × ι => (M.name p.1, M.name p.2)) M.pair_inj (fun _ (l : List (TestResult ι δ)) => l.map M.result) g.hist (u, v)

@[simp] theorem hist_set (g : Graph ι δ) (u v : ι) (l : List (TestResult ι δ)) :
    (M.graph g).hist.set (M.name u, M.name v) (l.map M.result) = (M.graph { g with hist := g.hist.set (u, v) l }).hist :=
  Dict.relabel_set (e := fun p : ι × ι => (M.name p.1, M.name p.2)) M.pair_inj (fun _ (l : List (TestResult ι δ)) => l.map M.result) g.hist (u, v) l

@[simp] theorem hist_has (g : Graph ι δ) (u v : ι) : (M.graph g).hist.has (M.name u, M.name v) = g.hist.has (u, v) :=
  Dict.relabel_has (e := fun p : ι × ι => (M.name p.1, M.name p.2)) M.pair_inj (fun _ (l : List (TestResult ι δ)) => l.map M.result) g.hist (u, v)

@[simp] theorem graph_edges (g : Graph ι δ) : (M.graph g).edges = M.rows g.edges := rfl
@[simp] theorem graph_rev (g : Graph ι δ) : (M.graph g).rev = M.rows g.rev := rfl
@[simp] theorem graph_del (g : Graph ι δ) : (M.graph g).del = M.rows g.del := rfl

/-! ## queries -/

@[simp] theorem softDeleted (g : Graph ι δ) (u v : ι) : (M.graph g).softDeleted (M.name u) (M.name v) = g.softDeleted u v := by
  unfold Graph.softDeleted
  rw [graph_edges, rows_get?]
  cases g.edges.get? u with
  | none => rfl
  | some r =>
    simp only [Option.map_some, Dict.relabel_get?]
    cases r.get? v <;> rfl

@[simp] theorem edgeExists (g : Graph ι δ) (u v : ι) : (M.graph g).edgeExists (M.name u) (M.name v) = g.edgeExists u v := by
  unfold Graph.edgeExists
  simp

@[simp] theorem directedEdgeExists (g : Graph ι δ) (u v : ι) :
    (M.graph g).directedEdgeExists (M.name u) (M.name v) = g.directedEdgeExists u v := by
  unfold Graph.directedEdgeExists
  simp

@[simp] theorem undirectedEdgeExists (g : Graph ι δ) (u v : ι) :
    (M.graph g).undirectedEdgeExists (M.name u) (M.name v) = g.undirectedEdgeExists u v := by
  unfold Graph.undirectedEdgeExists
  simp

@[simp] theorem onlyDirectedEdgeExists (g : Graph ι δ) (u v : ι) :
    (M.graph g).onlyDirectedEdgeExists (M.name u) (M.name v) = g.onlyDirectedEdgeExists u v := by
  unfold Graph.onlyDirectedEdgeExists
  simp

theorem edgeValue (g : Graph ι δ) (u v : ι) :
    (M.graph g).edgeValue (M.name u) (M.name v) = match g.edgeValue u v with
      | .error x => .error x
      | .ok o => .ok (o.map (M.info u v)) := by
  unfold Graph.edgeValue
  rw [edgeExists, graph_edges, rows_get2]
  split
  · rfl
  · cases g.edges.get2 u v <;> rfl

theorem filter_map_name (l : List ι) (p : ι → Bool) (q : ι' → Bool) (h : ∀ x, q (M.name x) = p x) :
    (l.map M.name).filter q = (l.filter p).map M.name := by
  rw [List.filter_map]
  congr 2
  exact funext h

theorem all_map_name (l : List ι) (p : ι → Bool) (q : ι' → Bool) (h : ∀ x, q (M.name x) = p x) :
    (l.map M.name).all q = l.all p := by
  rw [List.all_map]
  congr 1
  exact funext h

theorem any_map_name (l : List ι) (p : ι → Bool) (q : ι' → Bool) (h : ∀ x, q (M.name x) = p x) :
    (l.map M.name).any q = l.any p := by
  rw [List.any_map]
  congr 1
  exact funext h

theorem parentsOfNode (g : Graph ι δ) (u : ι) :
    (M.graph g).parentsOfNode (M.name u) = match g.parentsOfNode u with
      | .error x => .error x
      | .ok l => .ok (l.map M.name) := by
  unfold Graph.parentsOfNode
  rw [graph_rev, rows_get?]
  cases g.rev.get? u with
  | none => rfl
  | some r =>
    simp only [Option.map_some, Dict.relabel_keys]
    rw [M.filter_map_name r.keys (fun n => !g.softDeleted n u) _ (by simp)]
    rw [M.all_map_name _ (fun n => decide (n ∈ g.nodes)) _ (by simp)]
    split <;> rfl

theorem retrieveEdgeHistory (g : Graph ι δ) (u v : ι) (a : Action) :
    (M.graph g).retrieveEdgeHistory (M.name u) (M.name v) a = (g.retrieveEdgeHistory u v a).map M.result := by
  unfold Graph.retrieveEdgeHistory
  rw [hist_get?]
  cases g.hist.get? (u, v) with
  | none => rfl
  | some l =>
    simp only [Option.map_some, List.filter_map]
    rfl

@[simp] theorem otherNeighbours (g : Graph ι δ) (u : ι) :
    (M.graph g).otherNeighbours (M.name u) = (g.otherNeighbours u).map M.name := by
  unfold Graph.otherNeighbours
  rw [graph_edges, rows_keys2]
  exact M.filter_map_name _ _ _ (by simp)

theorem storedList (g : Graph ι δ) :
    (M.graph g).storedList = g.storedList.map (fun t => (M.name t.1, M.name t.2.1, M.edge t.1 t.2.1 t.2.2)) := by
  unfold Graph.storedList
  simp only [graph_edges, rows, Dict.relabel, List.flatMap_map, List.map_flatMap, List.map_map]
  rfl

theorem softDeletedList (g : Graph ι δ) :
    (M.graph g).softDeletedList = g.softDeletedList.map (fun p => (M.name p.1, M.name p.2)) := by
  unfold Graph.softDeletedList
  rw [storedList, List.filter_map, List.map_map, List.map_map]
  rfl

theorem liveEdgeList (g : Graph ι δ) :
    (M.graph g).liveEdgeList = g.liveEdgeList.map (fun p => (M.name p.1, M.name p.2)) := by
  unfold Graph.liveEdgeList
  rw [graph_edges, rows_keys, List.flatMap_map, List.map_flatMap]
  refine List.flatMap_congr (fun u _ => ?_)
  rw [rows_keys2, M.filter_map_name _ (fun t => g.directedEdgeExists u t) _ (by simp), List.map_map, List.map_map]
  rfl

end Relabel
end Verif
