import Verif.EndToEnd.Model
import Verif.Linear.Spec
import Verif.PC.Model
import Verif.PC.CpdagProps

/-!
# Specification vocabulary for complete runs
-/

namespace Verif
namespace EndToEnd
open Sample Data CI PC Graph Linear
variable {ι : Type} [DecidableEq ι] {n : ℕ}

/-- the noise of a variable: the first variable uses the first `n` draws, the next one the next `n`, and so on -/
def draws (n : ℕ) (rand : ℕ → ℝ) (vars : List ι) (v : ι) (i : Fin n) : ℝ := rand (vars.idxOf v * n + i)

/-- The draws are suitable: the noise columns vary and are uncorrelated in the sample. -/
def GoodDraws (n : ℕ) (rand : ℕ → ℝ) (vars : List ι) : Prop :=
  (∀ v ∈ vars, ∀ w ∈ vars, v ≠ w → Uncorrelated (draws n rand vars v) (draws n rand vars w)) ∧
  ∀ v ∈ vars, Stats.Varies (draws n rand vars v)

/-- No dependence is hidden from tests with the critical value `q` on the data that the draws produce. -/
def AllVisible (edges : List (SEdge ι ℝ)) (n : ℕ) (rand : ℕ → ℝ) (vars : List ι) (q : ℝ) : Prop :=
  ∀ col : ι → Fin n → ℝ, Structural edges (draws n rand vars) col → Visible (HasEdge edges) vars q col

/-- Both algorithms, run on a model with these nodes, end without an exception; the result has exactly the adjacencies of the
graph `sample` and directs exactly the edges that all DAGs with the same adjacencies and v-structures direct in this way. -/
def Recovers {δ : Type} (Φ : ℝ → ℝ) (threshold : ℝ) (n : ℕ) (nodes : Nodes ι ℝ) (sample : Graph ι δ) : Prop :=
  ∀ (Q : ℝ → ℕ → ℝ) (solve : Solver n) (ord : NbOrd ι), ord.Valid → ∀ (oc : Orient.Ord ι (Option ℝ)), oc.Valid →
  ∀ (o : Orient.Ords ι (Option ℝ)), o.Valid →
  ∀ alg : List (PStep ι (Info ι (Option ℝ))), alg = pc (dataTests Φ Q solve threshold (nodeValues nodes)) ord oc o ∨
    alg = pcClassic (dataTests Φ Q solve threshold (nodeValues nodes)) ord oc o →
  ∀ fuel : ℕ, nodes.length * nodes.length + 2 ≤ fuel → ∀ hist : List (HistRec ι (Info ι (Option ℝ))),
    let g := graphAfter fuel alg ⟨startGraph (loadedGraph nodes), hist⟩
    (runPipeline fuel alg ⟨startGraph (loadedGraph nodes), hist⟩).1 = .ok () ∧
    (∀ a b, g.edgeExists a b = true ↔ sample.directedEdgeExists a b = true ∨ sample.directedEdgeExists b a = true) ∧
    ∀ a b, g.Arrow a b ↔ Dag.Compelled (fun a b => sample.directedEdgeExists a b = true) a b

end EndToEnd
end Verif
