import Verif.EndToEnd.Model
import Verif.Effects.Model
import Verif.PC.Parallel
import Verif.Cli.Model

/-!
# The shipped algorithms as `causy execute` finds them
-/

namespace Verif
namespace EndToEnd
open Data CI PC Cli Linear
variable {ι : Type} [DecidableEq ι]

/-- what the steps find besides the data: numerical functions, the threshold (causy/causal_discovery/constraint/algorithms/
pc.py:38, 87, the default value of the variable, which `causy execute` cannot change), and the orders of the sets and the random
choices in this process -/
structure Machine (ι : Type) where
  Φ : ℝ → ℝ
  Q : ℝ → ℕ → ℝ
  solve : (n : ℕ) → Solver n
  lstsq : List (List (Option ℝ)) → List (Option ℝ) → List (Option ℝ)
  threshold : ℝ
  ord : NbOrd ι
  choice : ParChoice ι
  oc : Orient.Ord ι (Option ℝ)
  o : Orient.Ords ι (Option ℝ)

/-- the number of samples (common.py:44, 118, 203: the length of the values of a node) -/
def sampleCount (nodes : Nodes ι ℝ) : ℕ :=
  match nodes with
  | [] => 0
  | (_, col) :: _ => col.length

/-- the tests on the values of the nodes -/
noncomputable def Machine.tests (M : Machine ι) (nodes : Nodes ι ℝ) : Tests ι (Option ℝ) :=
  dataTests M.Φ M.Q (M.solve (sampleCount nodes)) M.threshold (nodeValues nodes)

/-- the last step on the values of the nodes (causal_effect_estimation/multivariate_regression.py:45-55) -/
def Machine.effects (M : Machine ι) (nodes : Nodes ι ℝ) : PStep ι (Info ι (Option ℝ)) :=
  .plain (Effects.effectStep ⟨fun v => (assoc v nodes).map (fun col => col.map some), M.lstsq⟩)

/-- `PC` (algorithms/pc.py:63-89) -/
noncomputable def Machine.pc (M : Machine ι) : ModelClass ι ℝ (Info ι (Option ℝ)) := fun nodes =>
  (PC.pc (M.tests nodes) M.ord M.oc M.o ++ [M.effects nodes]).map .seq

/-- `ParallelPC` (algorithms/pc.py:151-209) -/
noncomputable def Machine.parallelPC (M : Machine ι) : ModelClass ι ℝ (Info ι (Option ℝ)) := fun nodes =>
  PC.parallelPC (M.tests nodes) codeSizes M.choice M.oc M.o ++ [.seq (M.effects nodes)]

/-- `AVAILABLE_ALGORITHMS` (algorithms/__init__.py:3-6) -/
noncomputable def Machine.available (M : Machine ι) (name : String) : Option (ModelClass ι ℝ (Info ι (Option ℝ))) :=
  if name = "PC" then some M.pc else if name = "ParallelPC" then some M.parallelPC else none

end EndToEnd
end Verif
