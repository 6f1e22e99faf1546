import Verif.PC.Model

/-!
# The algorithm `PCStable` (causy/causal_discovery/constraint/algorithms/pc.py:120-148)
-/

namespace Verif
namespace PC
open Graph CI Orient
variable {ι ρ : Type} [DecidableEq ι]

/-- the tests of `PCStable`: all of them run on the graph as it is, and only then are the collected actions taken
(algorithms/pc.py:123-136; default generator independence_tests/common.py:171-174) -/
def stableTests (T : Tests ι ρ) (ord : NbOrd ι) : PStep ι (Info ι ρ) :=
  .together "ApplyActionsTogether" [corrStep T, partialStep T, matrixStep T (neighbours 4 ord)]

/-- the first two steps of `PCStable` (algorithms/pc.py:122-136) -/
def stableSkeleton (T : Tests ι ρ) (ord : NbOrd ι) : List (PStep ι (Info ι ρ)) :=
  [.plain (pearsonStep T), stableTests T ord]

/-- `PCStable` without its last step (algorithms/pc.py:120-137) -/
def pcStable (T : Tests ι ρ) (ord : NbOrd ι) (oc : Ord ι ρ) (o : Ords ι ρ) : List (PStep ι (Info ι ρ)) :=
  stableSkeleton T ord ++ orientationPhase oc o

end PC
end Verif
