import Verif.Graph.Model

/-!
# The method calls of `GraphManager` as a command language
-/

namespace Verif

/-- A call of a `GraphManager` method.  Each constructor corresponds to one method. -/
inductive Cmd (ι δ : Type)
  | addNode (id : ι)
  | addEdge (u v : ι) (m : δ) (t : EType)
  | addDirectedEdge (u v : ι) (m : δ) (t : EType)
  | addEdgeHistory (u v : ι) (r : TestResult ι δ)
  | removeEdge (u v : ι) (soft : Bool)
  | restoreEdge (u v : ι)
  | removeDirectedEdge (u v : ι) (soft : Bool)
  | restoreDirectedEdge (u v : ι)
  | updateEdge (u v : ι) (m : Option δ) (t : Option EType)
  | updateDirectedEdge (u v : ι) (m : Option δ) (t : Option EType)
  | purge

namespace Cmd
variable {ι δ : Type} [DecidableEq ι]

/-- Run one method call. -/
def run : Cmd ι δ → PyM (Graph ι δ) Unit
  | addNode id => Graph.addNode id
  | addEdge u v m t => Graph.addEdge u v m t
  | addDirectedEdge u v m t => Graph.addDirectedEdge u v m t
  | addEdgeHistory u v r => Graph.addEdgeHistory u v r
  | removeEdge u v s => Graph.removeEdge u v s
  | restoreEdge u v => Graph.restoreEdge u v
  | removeDirectedEdge u v s => Graph.removeDirectedEdge u v s
  | restoreDirectedEdge u v => Graph.restoreDirectedEdge u v
  | updateEdge u v m t => Graph.updateEdge u v m t
  | updateDirectedEdge u v m t => Graph.updateDirectedEdge u v m t
  | purge => Graph.purge

/-- Run a history of calls on a graph; the caller catches every exception and goes on. -/
def runAll (cs : List (Cmd ι δ)) (g : Graph ι δ) : Graph ι δ := cs.foldl (fun g c => (c.run g).2) g

/-- Whether the call is a hard `remove_edge` on a connection stored in exactly one direction. -/
def isOneWayHardRemove (c : Cmd ι δ) (g : Graph ι δ) : Prop :=
  ∃ u v, c = .removeEdge u v false ∧ g.edges.has2 u v ≠ g.edges.has2 v u

end Cmd

end Verif
