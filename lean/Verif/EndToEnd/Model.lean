import Verif.Sample.Model
import Verif.Data.Model
import Verif.CI.Lemmas3
import Verif.Linear.Model

/-!
# From generated samples to a graph model with data

`IIDSampleGenerator` output is handed to `create_graph_from_data`; the tests then read the values of the nodes.
-/

namespace Verif
namespace EndToEnd
open Sample Data CI Graph
variable {ι R : Type} {n : ℕ}

/-- the inner loop of `_generate_shaped_data` (sample_generator.py:201-204): the entry of sample `i` -/
def shapedEntry [DecidableEq ι] (i : Fin n) : List (ι × (Fin n → R)) → Dict ι R → Dict ι R
  | [], d => d
  | (k, c) :: l, d => shapedEntry i l (d.set k (c i))

/-- `IIDSampleGenerator._generate_shaped_data` (sample_generator.py:193-205): one dictionary per sample -/
def shapedData [DecidableEq ι] (out : Dict ι (Fin n → R)) : List (Row ι R) :=
  (List.finRange n).map (fun i => shapedEntry i out.items Dict.empty)

/-- the dictionary of columns returned by `generate` (sample_generator.py:207-230), with its tensors as lists -/
def columnLists [DecidableEq ι] (out : Dict ι (Fin n → R)) : Dict ι (List R) :=
  ⟨out.items.map (fun p => (p.1, List.ofFn p.2)), by
    rw [List.map_map]
    exact out.nodup⟩

/-- `u.values` for the node with id `v` (common.py:46, 205-216, 324-329): position `i` of the stored list; the list has an
entry there for every node if all columns have `n` entries, otherwise the value 0 stands for whatever happens -/
def nodeValues [DecidableEq ι] (nodes : Nodes ι ℝ) (v : ι) : Fin n → ℝ :=
  fun i => ((assoc v nodes).bind (fun l => l[i.val]?)).getD 0

/-- the graph of a model after `create_graph_from_data` (graph_model.py:101-183): the loaded nodes and no edges -/
def loadedGraph [DecidableEq ι] (nodes : Nodes ι ℝ) : CGraph ι (Option ℝ) := nodesOnly (nodes.map Prod.fst)

end EndToEnd
end Verif
