import Verif.Heap.Model
import Verif.Action.Lemmas

/-!
# Specifications: what a step may look at, and which dictionaries may be shared
-/

namespace Verif

/-- the two actions that store their data as metadata of an edge -/
def Action.isUpdate : Action → Bool
  | .updateEdge | .updateEdgeDirected => true
  | _ => false

namespace Heap
variable {ι δ τ : Type} [DecidableEq ι]

/-- `d` and `g` look the same to a step that reads nodes, edges, their types and metadata (of the latter only what `κ` keeps) and
the recorded actions, but not the data recorded with metadata updates -/
structure Seen (κ : δ → τ) (d g : Graph ι δ) : Prop where
  /-- everything but metadata is the same -/
  shape : d.map (fun _ => ()) = g.map (fun _ => ())
  metas : ∀ u v e e', d.edges.get2 u v = some e → g.edges.get2 u v = some e' → κ e.metadata = κ e'.metadata
  records : ∀ u v a, a.isUpdate = false → d.retrieveEdgeHistory u v a = g.retrieveEdgeHistory u v a

/-- a step that does not write into stored dictionaries, looks at no more than `Seen` allows and proposes no restores -/
structure Plain (s : Step ι δ) : Prop where
  gen : ∀ d g, Seen id d g → s.gen d = s.gen g
  thunk : ∀ g ts, s.gen g = .ok ts → ∀ t ∈ ts, ∀ d g', Seen id d g' → t d = t g'
  process : ∀ d g c loc, Seen id d g → s.process c d loc = s.process c g loc
  noRestore : ∀ c g loc rs, s.process c g loc = .ok (some rs) → ∀ r ∈ rs, r.action.isRestore = false

/-- a step that overwrites one key of the stored dictionary of each edge it proposes to update; `κ` forgets that key.  It
runs unchunked, looks at no more than `Seen κ` allows and proposes updates of existing edges: of both directions, or of
an edge whose other direction does not exist. -/
structure WritesKey (κ : δ → τ) (s : Step ι δ) : Prop where
  unchunked : s.chunked = false
  notSync : s.applySync = false
  noPending : s.needsUnapplied = false
  gen : ∀ d g, Seen id d g → s.gen d = s.gen g
  thunk : ∀ g ts, s.gen g = .ok ts → ∀ t ∈ ts, ∀ d g', Seen id d g' → t d = t g'
  process : ∀ d g c loc, Seen κ d g → s.process c d loc = s.process c g loc
  updates : ∀ c g ts loc rs, s.gen g = .ok ts → Yield.single c ∈ Graph.forceOn g ts → s.process c g loc = .ok (some rs) →
    ∀ r ∈ rs, ∃ m e, r.data = some m ∧
    g.edges.get2 r.u r.v = some e ∧ κ m = κ e.metadata ∧
    ((r.action = .updateEdge ∧ g.edgeExists r.u r.v = true) ∨
      (r.action = .updateEdgeDirected ∧ g.directedEdgeExists r.u r.v = true ∧ g.directedEdgeExists r.v r.u = false))

/-- the exit condition of a loop looks at no more than `Seen` allows -/
def ExitOk (exit : Graph ι δ → Option (List (TestResult ι δ)) → Nat → Except PyErr Bool) : Prop :=
  ∀ d g t n, Seen id d g → exit d t n = exit g t n

/-- A configured step as the properties admit it: steps that write into stored dictionaries are not used inside logic
steps, and `κ` forgets every key that is written. -/
def Admissible (κ : δ → τ) : HPStep ι δ → Prop
  | .plain s => (s.inPlace = false ∧ Plain s.step) ∨
      (s.inPlace = true ∧ ∃ (τ' : Type) (κ' : δ → τ'), WritesKey κ' s.step ∧ ∀ a b, κ' a = κ' b → κ a = κ b)
  | .loop _ ss exit => (∀ s ∈ ss, s.inPlace = false ∧ Plain s.step) ∧ ExitOk exit
  | .together _ ss => ∀ s ∈ ss, s.inPlace = false ∧ Plain s.step

/-- a result whose data are shown completely, or for metadata updates only as far as `κ` keeps them -/
def blur (κ : δ → τ) (r : TestResult ι δ) : TestResult ι (δ ⊕ τ) :=
  r.map (fun m => bif r.action.isUpdate then .inr (κ m) else .inl m)

/-- a history entry with blurred results -/
def blurStep (κ : δ → τ) (r : StepRec ι δ) : StepRec ι (δ ⊕ τ) := ⟨r.name, r.actions.map (blur κ), r.proposed.map (blur κ)⟩

/-- a history entry with blurred results -/
def blurRec (κ : δ → τ) : HistRec ι δ → HistRec ι (δ ⊕ τ)
  | .plain r => .plain (blurStep κ r)
  | .logic n rs => .logic n (rs.map (blurStep κ))

/-- what is seen when the action history is read -/
def HModel.entries (M : HModel ι δ) : List (HistRec ι δ) := M.history.map (HistRec.map M.state.cells)

/-- A run with shared dictionaries and one without have the same outcome: nodes and edges with their types and metadata
are the same, and so are all records except that the data of metadata updates may differ in what `κ` forgets. -/
structure Agree (κ : δ → τ) (M : HModel ι δ) (V : GModel ι δ) : Prop where
  nodes : M.state.deref.nodes = V.graph.nodes
  edges : ∀ u v, M.state.deref.edges.get2 u v = V.graph.edges.get2 u v
  records : ∀ u v, (M.state.deref.hist.get? (u, v)).map (List.map (blur κ)) = (V.graph.hist.get? (u, v)).map (List.map (blur κ))
  /-- also what is kept of removed edges -/
  rest : M.state.deref.map κ = V.graph.map κ
  history : M.entries.map (blurRec κ) = V.history.map (blurRec κ)

end Heap
end Verif
