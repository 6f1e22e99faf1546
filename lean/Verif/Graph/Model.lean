import Verif.Basic.Py

/-!
# The stored graph (causy/graph.py)

Transliteration of `Graph`, `GraphBaseAccessMixin` (edge queries) and `GraphManager` (edits).

Simplifications, valid for the whole file:
* A `Node` is represented by its id (`ι`); name, values and metadata of nodes are never read by the
  modelled methods.  Every method that accepts `Union[Node, str]` immediately replaces a node by its id
  (e.g. causy/graph.py:76-79), so one id argument models both call forms.
* `metadata` dictionaries are opaque values of type `δ`.
* `edges[u][v]` and `_reverse_edges[v][u]` are one shared python object (causy/graph.py:702-707,
  737-738).  The model stores two copies; each in-place mutation of the object is modelled by the two
  writes which the code itself performs on both dictionaries.
-/

namespace Verif

/-- Edge types (causy/edge_types.py:18-21, 24-27, 126-129, 147-150), compared by name
(causy/interfaces.py:155-156). -/
inductive EType
  | directed | undirected | bidirected
  deriving DecidableEq, Repr

/-- `Edge` (causy/graph.py:39-58). -/
structure Edge (ι δ : Type) where
  u : ι
  v : ι
  etype : EType
  metadata : δ
  deleted : Bool
  deriving DecidableEq, Repr

/-- `TestResultAction` (causy/models.py:35-52). -/
inductive Action
  | updateEdge | updateEdgeDirected | updateEdgeType | updateEdgeTypeDirected
  | removeEdgeUndirected | removeEdgeDirected | restoreEdge | restoreEdgeDirected | doNothing
  deriving DecidableEq, Repr

/-- `TestResult` (causy/models.py:55-59). -/
structure TestResult (ι δ : Type) where
  u : ι
  v : ι
  action : Action
  data : Option δ
  deriving DecidableEq, Repr

/-- `Graph` (causy/graph.py:582-588) without `action_history`, which is modelled with the pipeline. -/
@[ext]
structure Graph (ι δ : Type) where
  /-- keys of `nodes`, in insertion order -/
  nodes : List ι
  edges : Dict ι (Dict ι (Edge ι δ))
  rev : Dict ι (Dict ι (Edge ι δ))
  del : Dict ι (Dict ι (Edge ι δ))
  hist : Dict (ι × ι) (List (TestResult ι δ))

instance {ι δ : Type} [DecidableEq ι] [DecidableEq δ] : DecidableEq (Graph ι δ) := fun a b =>
  decidable_of_iff (a.nodes = b.nodes ∧ a.edges = b.edges ∧ a.rev = b.rev ∧ a.del = b.del ∧
    a.hist = b.hist)
    ⟨fun ⟨h1, h2, h3, h4, h5⟩ => Graph.ext h1 h2 h3 h4 h5, fun h => by rw [h]; simp⟩

namespace Graph
variable {ι δ : Type} [DecidableEq ι]

/-- `GraphManager.__init__` (causy/graph.py:624-630): a graph without nodes and edges. -/
def empty : Graph ι δ := ⟨[], Dict.empty, Dict.empty, Dict.empty, Dict.empty⟩

/-! ## Queries (`GraphBaseAccessMixin`) -/

/-- `directed_edge_is_soft_deleted` (causy/graph.py:66-85). -/
def softDeleted (g : Graph ι δ) (u v : ι) : Bool :=
  match g.edges.get? u with
  | none => false
  | some row =>
    match row.get? v with
    | none => false
    | some e => e.deleted

/-- `parents_of_node` (causy/graph.py:87-100): `KeyError` if the node has no row in the reverse
index, or if a listed id is not a node. -/
def parentsOfNode (g : Graph ι δ) (u : ι) : Except PyErr (List ι) :=
  match g.rev.get? u with
  | none => .error .keyError
  | some row =>
    let l := row.keys.filter (fun n => !g.softDeleted n u)
    if l.all (fun n => decide (n ∈ g.nodes)) then .ok l else .error .keyError

/-- `edge_exists` (causy/graph.py:102-131). -/
def edgeExists (g : Graph ι δ) (u v : ι) : Bool :=
  if u ∉ g.nodes then false
  else if v ∉ g.nodes then false
  else if g.edges.has2 u v && !g.softDeleted u v then true
  else if g.edges.has2 v u && !g.softDeleted v u then true
  else false

/-- `directed_edge_exists` (causy/graph.py:133-158). -/
def directedEdgeExists (g : Graph ι δ) (u v : ι) : Bool :=
  if u ∉ g.nodes then false
  else if v ∉ g.nodes then false
  else if !g.edges.has u then false
  else if !g.edges.has2 u v then false
  else if g.softDeleted u v then false
  else true

/-- `edge_value` (causy/graph.py:168-183). -/
def edgeValue (g : Graph ι δ) (u v : ι) : Except PyErr (Option δ) :=
  if !g.edgeExists u v then .ok none
  else match g.edges.get2 u v with
    | none => .error .keyError
    | some e => .ok (some e.metadata)

/-- `edge_type` (causy/graph.py:185-200). -/
def edgeType (g : Graph ι δ) (u v : ι) : Except PyErr (Option EType) :=
  if !g.edgeExists u v then .ok none
  else match g.edges.get2 u v with
    | none => .error .keyError
    | some e => .ok (some e.etype)

/-- `undirected_edge_exists` (causy/graph.py:202-216). -/
def undirectedEdgeExists (g : Graph ι δ) (u v : ι) : Bool :=
  g.directedEdgeExists u v && g.directedEdgeExists v u

/-- `only_directed_edge_exists` (causy/edge_types.py:29-40). -/
def onlyDirectedEdgeExists (g : Graph ι δ) (u v : ι) : Bool :=
  g.directedEdgeExists u v && !g.directedEdgeExists v u

/-- `get_siblings` (causy/graph.py:218-231), as the list in node order from which the set is built. -/
def getSiblings (g : Graph ι δ) (v : ι) : List ι :=
  g.nodes.filter (fun n => decide (n ≠ v) && g.undirectedEdgeExists v n)

/-- `retrieve_edge_history` with an action (causy/graph.py:249-255). -/
def retrieveEdgeHistory (g : Graph ι δ) (u v : ι) (a : Action) : List (TestResult ι δ) :=
  match g.hist.get? (u, v) with
  | none => []
  | some l => l.filter (fun r => decide (r.action = a))

/-- `retrieve_edge_history` without an action (causy/graph.py:249-250). -/
def retrieveEdgeHistoryAll (g : Graph ι δ) (u v : ι) : Except PyErr (List (TestResult ι δ)) :=
  match g.hist.get? (u, v) with
  | none => .error .keyError
  | some l => .ok l

/-- `edge_of_type_exists` (causy/graph.py:277-302). -/
def edgeOfTypeExists (g : Graph ι δ) (u v : ι) (t : EType) : Bool :=
  if !g.directedEdgeExists u v then false
  else match g.edges.get2 u v with
    | none => false  -- unreachable: the previous check requires the entry
    | some e => decide (e.etype = t)

/-- The entries `(u, v, edges[u][v])` in iteration order of `for u in edges: for v in edges[u]`. -/
def storedList (g : Graph ι δ) : List (ι × ι × Edge ι δ) :=
  g.edges.items.flatMap (fun p => p.2.items.map (fun q => (p.1, q.1, q.2)))

/-- `retrieve_edges` (causy/graph.py:569-579); `self.nodes[u]` raises `KeyError` for unknown ids. -/
def retrieveEdges (g : Graph ι δ) : Except PyErr (List (Edge ι δ)) :=
  if g.storedList.all (fun t => decide (t.1 ∈ g.nodes) && decide (t.2.1 ∈ g.nodes)) then
    .ok ((g.storedList.filter (fun t => !g.softDeleted t.1 t.2.1)).map (fun t => t.2.2))
  else .error .keyError

/-- `get_edge` (causy/graph.py:640-651). -/
def getEdge (g : Graph ι δ) (u v : ι) : Except PyErr (Edge ι δ) :=
  if !g.edges.has u then .error .graphError
  else match g.edges.get2 u v with
    | none => .error .graphError
    | some e => .ok e

/-! ## Primitive dictionary statements -/

/-- `self.edges[u][v]` -/
def getE (u v : ι) : PyM (Graph ι δ) (Edge ι δ) := fun g =>
  match g.edges.get2 u v with
  | some e => (.ok e, g)
  | none => (.error .keyError, g)

/-- `self.edges[u][v] = e` -/
def setE (u v : ι) (e : Edge ι δ) : PyM (Graph ι δ) Unit := fun g =>
  if g.edges.has u then (.ok (), { g with edges := g.edges.set2 u v e }) else (.error .keyError, g)

/-- `del self.edges[u][v]` -/
def delE (u v : ι) : PyM (Graph ι δ) Unit := fun g =>
  if g.edges.has2 u v then (.ok (), { g with edges := g.edges.del2 u v }) else (.error .keyError, g)

/-- `self._reverse_edges[u][v]` -/
def getR (u v : ι) : PyM (Graph ι δ) (Edge ι δ) := fun g =>
  match g.rev.get2 u v with
  | some e => (.ok e, g)
  | none => (.error .keyError, g)

/-- `self._reverse_edges[u][v] = e` -/
def setR (u v : ι) (e : Edge ι δ) : PyM (Graph ι δ) Unit := fun g =>
  if g.rev.has u then (.ok (), { g with rev := g.rev.set2 u v e }) else (.error .keyError, g)

/-- `del self._reverse_edges[u][v]` -/
def delR (u v : ι) : PyM (Graph ι δ) Unit := fun g =>
  if g.rev.has2 u v then (.ok (), { g with rev := g.rev.del2 u v }) else (.error .keyError, g)

/-- `self._deleted_edges[u][v]` -/
def getD (u v : ι) : PyM (Graph ι δ) (Edge ι δ) := fun g =>
  match g.del.get2 u v with
  | some e => (.ok e, g)
  | none => (.error .keyError, g)

/-- `self._deleted_edges[u][v] = e` -/
def setD (u v : ι) (e : Edge ι δ) : PyM (Graph ι δ) Unit := fun g =>
  if g.del.has u then (.ok (), { g with del := g.del.set2 u v e }) else (.error .keyError, g)

/-- `del self._deleted_edges[u][v]` -/
def delD (u v : ι) : PyM (Graph ι δ) Unit := fun g =>
  if g.del.has2 u v then (.ok (), { g with del := g.del.del2 u v }) else (.error .keyError, g)

/-- `self.edges[u][v].<field> = ...` : in-place change of the stored object, seen through `edges` -/
def modE (u v : ι) (f : Edge ι δ → Edge ι δ) : PyM (Graph ι δ) Unit := do
  let e ← getE u v
  setE u v (f e)

/-- `self._reverse_edges[u][v].<field> = ...` : the same, seen through `_reverse_edges` -/
def modR (u v : ι) (f : Edge ι δ → Edge ι δ) : PyM (Graph ι δ) Unit := do
  let e ← getR u v
  setR u v (f e)

/-! ## Edits (`GraphManager`) -/

/-- `add_node` (causy/graph.py:975-1012); conversion of the values is not modelled. -/
def addNode (id : ι) : PyM (Graph ι δ) Unit := fun g =>
  if id ∈ g.nodes then (.error .valueError, g) else (.ok (), { g with nodes := g.nodes ++ [id] })

/-- first half of `_init_edge` for one node (causy/graph.py:661-664 and 665-668) -/
def initRow (u : ι) : PyM (Graph ι δ) Unit := fun g =>
  if g.edges.has u then (.ok (), g)
  else (.ok (), { g with
    edges := g.edges.set u Dict.empty, rev := g.rev.set u Dict.empty, del := g.del.set u Dict.empty })

/-- second half of `_init_edge` for one ordered pair (causy/graph.py:670-671 and 672-673) -/
def initHist (u v : ι) : PyM (Graph ι δ) Unit := fun g =>
  if g.hist.has (u, v) then (.ok (), g) else (.ok (), { g with hist := g.hist.set (u, v) [] })

/-- `_init_edge` (causy/graph.py:653-673). -/
def initEdge (u v : ι) : PyM (Graph ι δ) Unit := do
  initRow u
  initRow v
  initHist u v
  initHist v u

/-- `add_edge` (causy/graph.py:675-707). -/
def addEdge (u v : ι) (metadata : δ) (t : EType := .undirected) : PyM (Graph ι δ) Unit := do
  let g ← PyM.get
  if u ∉ g.nodes then PyM.raise .graphError
  else if v ∉ g.nodes then PyM.raise .graphError
  else if u = v then PyM.raise .graphError
  else
    initEdge u v
    setE u v ⟨u, v, t, metadata, false⟩
    setR v u ⟨u, v, t, metadata, false⟩
    setE v u ⟨v, u, t, metadata, false⟩
    setR u v ⟨v, u, t, metadata, false⟩

/-- `add_directed_edge` (causy/graph.py:709-738). -/
def addDirectedEdge (u v : ι) (metadata : δ) (t : EType := .directed) : PyM (Graph ι δ) Unit := do
  let g ← PyM.get
  if u ∉ g.nodes then PyM.raise .graphError
  else if v ∉ g.nodes then PyM.raise .graphError
  else if u = v then PyM.raise .graphError
  else
    initEdge u v
    setE u v ⟨u, v, t, metadata, false⟩
    setR v u ⟨u, v, t, metadata, false⟩

/-- `add_edge_history` (causy/graph.py:740-750). -/
def addEdgeHistory (u v : ι) (r : TestResult ι δ) : PyM (Graph ι δ) Unit := fun g =>
  match g.hist.get? (u, v) with
  | none => (.ok (), { g with hist := g.hist.set (u, v) [r] })
  | some l => (.ok (), { g with hist := g.hist.set (u, v) (l ++ [r]) })

/-- soft half of `remove_edge` for one direction (causy/graph.py:765-767 and 769-771) -/
def softMark (u v : ι) : PyM (Graph ι δ) Unit := do
  let g ← PyM.get
  if g.edges.has2 u v then
    modE u v (fun e => { e with deleted := true })
    modR v u (fun e => { e with deleted := true })
  else pure ()

/-- hard half of `remove_edge` for one direction (causy/graph.py:775-778 and 780-783).  Note that the
code deletes `_reverse_edges[u][v]` here, which is the entry of the opposite direction. -/
def hardDel (u v : ι) : PyM (Graph ι δ) Unit := do
  let g ← PyM.get
  if g.edges.has2 u v then
    let e ← getE u v
    setD u v e
    delE u v
    delR u v
  else pure ()

/-- `remove_edge` (causy/graph.py:752-783). -/
def removeEdge (u v : ι) (soft : Bool := false) : PyM (Graph ι δ) Unit := do
  let g ← PyM.get
  if u ∉ g.nodes then PyM.raise .graphError
  else if v ∉ g.nodes then PyM.raise .graphError
  else if soft then
    softMark u v
    softMark v u
  else
    hardDel u v
    hardDel v u

/-- one half of `restore_edge` (causy/graph.py:797-802 and 804-809) -/
def restoreHalf (u v : ι) : PyM (Graph ι δ) Unit := do
  let g ← PyM.get
  if g.edges.has2 u v then
    modE u v (fun e => { e with deleted := false })
    modR v u (fun e => { e with deleted := false })
  else
    let e ← getD u v
    addEdge u v e.metadata
    delD u v

/-- `restore_edge` (causy/graph.py:785-809). -/
def restoreEdge (u v : ι) : PyM (Graph ι δ) Unit := do
  let g ← PyM.get
  if u ∉ g.nodes then PyM.raise .graphError
  else if v ∉ g.nodes then PyM.raise .graphError
  else
    restoreHalf u v
    restoreHalf v u

/-- `remove_directed_edge` (causy/graph.py:811-836). -/
def removeDirectedEdge (u v : ι) (soft : Bool := false) : PyM (Graph ι δ) Unit := do
  let g ← PyM.get
  if u ∉ g.nodes then PyM.raise .graphError
  else if v ∉ g.nodes then PyM.raise .graphError
  else if !g.edges.has u then pure ()
  else if !g.edges.has2 u v then pure ()
  else if soft then
    modE u v (fun e => { e with deleted := true })
    modR v u (fun e => { e with deleted := true })
  else
    let e ← getE u v
    setD u v e
    delE u v
    delR v u

/-- `restore_directed_edge` (causy/graph.py:838-855). -/
def restoreDirectedEdge (u v : ι) : PyM (Graph ι δ) Unit := do
  let g ← PyM.get
  if u ∉ g.nodes then PyM.raise .graphError
  else if v ∉ g.nodes then PyM.raise .graphError
  else if g.edges.has2 u v then
    modE u v (fun e => { e with deleted := false })
    modR v u (fun e => { e with deleted := false })
  else
    let e ← getD u v
    addDirectedEdge u v e.metadata
    delD u v

/-- `update_edge` (causy/graph.py:857-920). -/
def updateEdge (u v : ι) (metadata : Option δ := none) (t : Option EType := none) :
    PyM (Graph ι δ) Unit := do
  let g ← PyM.get
  if u ∉ g.nodes then PyM.raise .graphError
  else if v ∉ g.nodes then PyM.raise .graphError
  else if !g.edges.has u then PyM.raise .graphError
  else if !g.edges.has v then PyM.raise .graphError
  else if !g.edges.has2 v u then PyM.raise .graphError
  else if !g.edges.has2 u v then PyM.raise .graphError
  else
    PyM.whenSome metadata (fun m => do
      modE u v (fun e => { e with metadata := m })
      modE v u (fun e => { e with metadata := m })
      modR u v (fun e => { e with metadata := m })
      modR v u (fun e => { e with metadata := m }))
    PyM.whenSome t (fun t => do
      modE u v (fun e => { e with etype := t })
      modE v u (fun e => { e with etype := t })
      modR u v (fun e => { e with etype := t })
      modR v u (fun e => { e with etype := t }))

/-- `update_directed_edge` (causy/graph.py:922-960). -/
def updateDirectedEdge (u v : ι) (metadata : Option δ := none) (t : Option EType := none) :
    PyM (Graph ι δ) Unit := do
  let g ← PyM.get
  if u ∉ g.nodes then PyM.raise .graphError
  else if v ∉ g.nodes then PyM.raise .graphError
  else if !g.edges.has u then PyM.raise .graphError
  else if !g.edges.has2 u v then PyM.raise .graphError
  else
    PyM.whenSome metadata (fun m => do
      modE u v (fun e => { e with metadata := m })
      modR v u (fun e => { e with metadata := m }))
    PyM.whenSome t (fun t => do
      modE u v (fun e => { e with etype := t })
      modR v u (fun e => { e with etype := t }))

/-- first loop of `purge_soft_deleted_edges` (causy/graph.py:966-970) -/
def softDeletedList (g : Graph ι δ) : List (ι × ι) :=
  (g.storedList.filter (fun t => t.2.2.deleted)).map (fun t => (t.1, t.2.1))

/-- `purge_soft_deleted_edges` (causy/graph.py:962-973). -/
def purge : PyM (Graph ι δ) Unit := do
  let g ← PyM.get
  if g.softDeletedList.all (fun p => decide (p.1 ∈ g.nodes) && decide (p.2 ∈ g.nodes)) then
    PyM.forEach g.softDeletedList (fun p => removeDirectedEdge p.1 p.2)
  else PyM.raise .keyError

/-- `create_all_possible_edges` (causy/graph_model.py:185-195): `m0` is the empty metadata `{}`. -/
def createAllPossibleEdges (m0 : δ) : PyM (Graph ι δ) Unit := do
  let g ← PyM.get
  PyM.forEach g.nodes (fun u =>
    PyM.forEach g.nodes (fun v => if u = v then pure () else addEdge u v m0))

end Graph
end Verif
