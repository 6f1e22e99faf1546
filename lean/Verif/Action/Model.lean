import Verif.Graph.Model

/-!
# Applying proposed actions (`GraphModel._take_action`, causy/graph_model.py:293-430)

Simplifications:
* no `pre_graph_update_hooks` / `post_graph_update_hooks` are configured (the shipped algorithms configure
  none); the per-edge-type hooks (`_execute_hook`, causy/graph_model.py:277-291) are the empty methods of
  `EdgeTypeInterface` (causy/interfaces.py:84-150), whose exceptions are swallowed, so they are omitted; `Verif/Hooks` has the model with hooks;
* log messages are omitted;
* `u` and `v` of a result are nodes (never `None`).
-/

namespace Verif
namespace Graph
variable {ι δ : Type} [DecidableEq ι]

/-- The body of the inner loop of `_take_action` for one action, `dry_run=False`
(causy/graph_model.py:327-424).  The returned flag says whether the action is appended to
`actions_taken`. -/
def applyOne (r : TestResult ι δ) : PyM (Graph ι δ) Bool := do
  let g ← PyM.get
  match r.action with
  | .removeEdgeUndirected =>
    if !g.undirectedEdgeExists r.u r.v then pure false
    else
      removeEdge r.u r.v true
      addEdgeHistory r.u r.v r
      addEdgeHistory r.v r.u r
      pure true
  | .updateEdge =>
    if !g.edgeExists r.u r.v then pure false
    else
      updateEdge r.u r.v r.data none
      addEdgeHistory r.u r.v r
      addEdgeHistory r.v r.u r
      pure true
  | .updateEdgeDirected =>
    if !g.directedEdgeExists r.u r.v then pure false
    else
      updateDirectedEdge r.u r.v r.data none
      addEdgeHistory r.u r.v r
      pure true
  | .doNothing => pure false
  | .removeEdgeDirected =>
    if !g.directedEdgeExists r.u r.v && !g.edgeExists r.u r.v then pure false
    else
      removeDirectedEdge r.u r.v true
      let g ← PyM.get
      PyM.when (g.edgeExists r.v r.u) (updateDirectedEdge r.v r.u none (some .directed))
      addEdgeHistory r.u r.v r
      pure true
  | .updateEdgeType =>
    -- `i.edge_type` is evaluated before the call; `TestResult` has no such field (causy/models.py:55-59)
    if !g.edgeExists r.u r.v then pure false else PyM.raise .attributeError
  | .updateEdgeTypeDirected =>
    if !g.directedEdgeExists r.u r.v then pure false else PyM.raise .attributeError
  | .restoreEdge =>
    if g.edgeExists r.u r.v then pure false
    else
      restoreEdge r.u r.v
      addEdgeHistory r.u r.v r
      addEdgeHistory r.v r.u r
      pure true
  | .restoreEdgeDirected =>
    if g.directedEdgeExists r.u r.v then pure false
    else
      restoreDirectedEdge r.u r.v
      addEdgeHistory r.u r.v r
      pure true

/-- The loop over `result_items` (causy/graph_model.py:321-424). -/
def takeItems (dry : Bool) : List (TestResult ι δ) → PyM (Graph ι δ) (List (TestResult ι δ))
  | [] => pure []
  | r :: rs =>
    if dry then do
      let rest ← takeItems dry rs
      pure (r :: rest)
    else do
      let b ← applyOne r
      let rest ← takeItems dry rs
      pure (if b then r :: rest else rest)

/-- `_take_action` (causy/graph_model.py:293-430).  A result is `none` for `None`, and the list of
actions otherwise (a single result is wrapped into a list by the code).  Returns
`(all_actions_taken, all_actions)`. -/
def takeAction (dry : Bool) :
    List (Option (List (TestResult ι δ))) → PyM (Graph ι δ) (List (TestResult ι δ) × List (TestResult ι δ))
  | [] => pure ([], [])
  | none :: rest => takeAction dry rest
  | some items :: rest => do
    let t ← takeItems dry items
    let (ts, as) ← takeAction dry rest
    pure (t ++ ts, items ++ as)

end Graph
end Verif
