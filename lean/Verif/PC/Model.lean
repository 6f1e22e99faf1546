import Verif.Orient.Model

/-!
# The algorithms `PC` and `PCClassic` (causy/causal_discovery/constraint/algorithms/pc.py:63-119)

The lists of steps with their configured generators.  The last step of both,
`ComputeDirectEffectsInDAGsMultivariateRegression`, is modelled in `Verif/Effects`, which
also shows that it only writes metadata (C89).
-/

namespace Verif
namespace PC
open Graph CI Orient
variable {ι ρ : Type} [DecidableEq ι]

/-- iteration order of the sets of `PairsWithNeighboursGenerator` -/
abbrev NbOrd (ι : Type) := Nat → ι → ι → List ι → List ι

/-- `PairsWithNeighboursGenerator(comparison_settings=ComparisonSettings(min=min, max=AS_MANY_AS_FIELDS),
shuffle_combinations=False)`, chunked by default (causy/generators.py:105-106) -/
def neighbours (min : Int) (ord : NbOrd ι) : NbCfg ι where
  settings := ⟨min, 0⟩
  chunked := true
  shuffle := false
  setOrd := ord
  shuf := fun _ _ _ l => l

/-- the first four steps of `PC` (algorithms/pc.py:66-79; default generator independence_tests/common.py:171-174) -/
def pcSkeleton (T : Tests ι ρ) (ord : NbOrd ι) : List (PStep ι (Info ι ρ)) :=
  [.plain (pearsonStep T), .plain (corrStep T), .plain (partialStep T), .plain (matrixStep T (neighbours 4 ord))]

/-- the first three steps of `PCClassic` (algorithms/pc.py:94-109) -/
def classicSkeleton (T : Tests ι ρ) (ord : NbOrd ι) : List (PStep ι (Info ι ρ)) :=
  [.plain (pearsonStep T), .plain (corrStep T), .plain (matrixStep T (neighbours 3 ord))]

/-- `PC` without its last step (algorithms/pc.py:63-80) -/
def pc (T : Tests ι ρ) (ord : NbOrd ι) (oc : Ord ι ρ) (o : Ords ι ρ) : List (PStep ι (Info ι ρ)) :=
  pcSkeleton T ord ++ orientationPhase oc o

/-- `PCClassic` without its last step (algorithms/pc.py:91-110) -/
def pcClassic (T : Tests ι ρ) (ord : NbOrd ι) (oc : Ord ι ρ) (o : Ords ι ρ) : List (PStep ι (Info ι ρ)) :=
  classicSkeleton T ord ++ orientationPhase oc o

end PC
end Verif
