import Verif.Eject.Model

/-!
# The shipped algorithms `PC` and `ParallelPC` as objects that can be dumped

causy/causal_discovery/constraint/algorithms/pc.py:38-88, 150-219 and the step classes they use.
-/

namespace Verif
namespace Serial
namespace Eject

/-- `AllCombinationsGenerator(comparison_settings=ComparisonSettings(min=n, max=n))` -/
def allOf (n : Int) : SVal := .gen (.leaf .allCombinations ⟨some (.int n, .int n), .bool false, .none, .none⟩)

/-- `PairsWithNeighboursGenerator(comparison_settings=ComparisonSettings(min=4, max=AS_MANY_AS_FIELDS), …)` with the given
`chunked` and `shuffle_combinations`; `AS_MANY_AS_FIELDS` is 0 (interfaces.py) -/
def neighbours (chunked shuffle : Bool) : Gen :=
  .leaf .pairsWithNeighbours ⟨some (.int 4, .int 0), .bool chunked, .none, .bool shuffle⟩

/-- a class derived from `PipelineStepInterface` (interfaces.py:346-359) with its generator, chunk size and
`needs_unapplied_actions`; all of them set `parallel = False` -/
def stepClass (generator : SVal) (chunkSize : Int) (unapplied : Bool) : StepClass :=
  [("generator", generator), ("threshold", .val (.float 1 100)), ("chunk_size_parallel_processing", .val (.int chunkSize)),
    ("parallel", .val (.bool false)), ("display_name", .val .none), ("needs_unapplied_actions", .val (.bool unapplied)),
    ("apply_synchronous", .val (.bool false))]

/-- the step classes used in pc.py (calculation.py:15-22; independence_tests/common.py:25-32, 77-84, 168-176;
orientation_rules/pc.py:77-90, 217-224, 308-315, 366-373, 434-441; multivariate_regression.py:14-18) -/
def repoClasses : List (String × StepClass) :=
  [("CalculatePearsonCorrelations", stepClass (allOf 2) 1 false),
    ("CorrelationCoefficientTest", stepClass (allOf 2) 1 false),
    ("PartialCorrelationTest", stepClass (allOf 3) 1 false),
    ("ExtendedPartialCorrelationTestMatrix", stepClass (.gen (neighbours true false)) 1000 false),
    ("ColliderTest", stepClass (allOf 2) 1 true ++ [("conflict_resolution_strategy", .val (.enum "KEEP_FIRST"))]),
    ("NonColliderTest", stepClass (allOf 2) 1 false),
    ("FurtherOrientTripleTest", stepClass (allOf 2) 1 false),
    ("OrientQuadrupleTest", stepClass (allOf 2) 1 false),
    ("FurtherOrientQuadrupleTest", stepClass (allOf 2) 1 false),
    ("ComputeDirectEffectsInDAGsMultivariateRegression",
      stepClass (.gen (.leaf (.pairsWithEdges (.int 100)) ⟨none, .none, .none, .none⟩)) 1 false)]

def repoClass (cls : String) : Option StepClass := assoc cls repoClasses

/-- the object made by `cls(**settings)` -/
def make (cls : String) (settings : List (String × SVal)) : Step :=
  .simple cls (((repoClass cls).getD []).map (fun p => (p.1, (assoc p.1 settings).getD p.2)))

def named (s : String) : String × SVal := ("display_name", .val (.str s))

def threshold : String × SVal := ("threshold", .val (.ref "threshold"))

/-- `PC_ORIENTATION_RULES` (pc.py:40-52) -/
def orientationRules : List Step :=
  [make "ColliderTest" [named "Collider Test"],
    .logic "Loop"
      [make "NonColliderTest" [named "Non-Collider Test"],
        make "FurtherOrientTripleTest" [named "Further Orient Triple Test"],
        make "OrientQuadrupleTest" [named "Orient Quadruple Test"],
        make "FurtherOrientQuadrupleTest" [named "Further Orient Quadruple Test"]]
      (some "ExitOnNoActions") (.str "Orientation Rules Loop")]

def effects : Step :=
  make "ComputeDirectEffectsInDAGsMultivariateRegression" [named "Compute Direct Effects in DAGs Multivariate Regression"]

/-- the algorithm of `PC` (pc.py:63-88) -/
def pc : Algo :=
  ⟨⟨"PC", [make "CalculatePearsonCorrelations" [named "Calculate Pearson Correlations"],
      make "CorrelationCoefficientTest" [threshold, named "Correlation Coefficient Test"],
      make "PartialCorrelationTest" [threshold, named "Partial Correlation Test"],
      make "ExtendedPartialCorrelationTestMatrix" [threshold, named "Extended Partial Correlation Test Matrix"]] ++
      orientationRules ++ [effects], [.object "DIRECTED", .object "UNDIRECTED"]⟩, [("threshold", .float 1 20)]⟩

/-- the algorithm of `ParallelPC` (pc.py:150-219) -/
def parallelPc : Algo :=
  ⟨⟨"ParallelPC", [make "CalculatePearsonCorrelations" [named "Calculate Pearson Correlations"],
      make "CorrelationCoefficientTest" [threshold, named "Correlation Coefficient Test"],
      make "PartialCorrelationTest" [threshold, ("parallel", .val (.bool true)),
        ("chunk_size_parallel_processing", .val (.int 50000)), named "Partial Correlation Test"],
      make "ExtendedPartialCorrelationTestMatrix" [threshold, named "Sampled Extended Partial Correlation Test Matrix",
        ("chunk_size_parallel_processing", .val (.int 5000)), ("parallel", .val (.bool true)),
        ("generator", .gen (.nest .randomSample ⟨none, .bool false, .ref "every_nth_sample", .none⟩ (neighbours false true)))],
      make "ExtendedPartialCorrelationTestMatrix" [threshold, named "Extended Partial Correlation Test Matrix",
        ("chunk_size_parallel_processing", .val (.int 20000)), ("parallel", .val (.bool true)),
        ("generator", .gen (neighbours false true))]] ++
      orientationRules ++ [effects], [.object "DIRECTED", .object "UNDIRECTED"]⟩,
    [("threshold", .float 1 20), ("every_nth_sample", .int 200)]⟩

end Eject
end Serial
end Verif
