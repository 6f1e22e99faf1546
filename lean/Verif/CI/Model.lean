import Verif.Pipeline.Model

/-!
# The independence-test phase

`CalculatePearsonCorrelations` (causy/common_pipeline_steps/calculation.py:15-57) and the tests of
causy/causal_discovery/constraint/independence_tests/common.py.

The numerical core of a test is a parameter (`Tests`): what the floating-point code answers for the given numbers or
data columns.  Everything around it (which edges are looked up, which answers are discarded, what is proposed and
recorded) is modelled.

Simplifications:
* Edge metadata is a record of the keys the modelled steps read: `correlation`, `direct_effect`, `separatedBy`, and
  `mark` for the key `edge_type` (with value None) that `ColliderRuleFCI` writes.  The key
  `triple` of proposed actions is never read and is omitted.
* The order of the list recorded under `separatedBy` (it is built from a set, common.py:252-255) is the order of the
  combination; the code only tests membership in it.
* `CalculatePearsonCorrelations` also writes the correlation into the stored dictionary before proposing it; the same
  value is written again by the proposed `UPDATE_EDGE`, and no other call of the step reads that edge.
-/

namespace Verif

/-- the keys of a metadata dictionary the modelled steps use; `ρ` is the type of numbers -/
structure Info (ι ρ : Type) where
  corr : Option ρ := none
  effect : Option ρ := none
  sep : Option (List ι) := none
  mark : Bool := false
  deriving DecidableEq, Repr

/-- the answers of the numerical code; `true` means "independent" (p value above the threshold) -/
structure Tests (ι ρ : Type) where
  /-- calculation.py:34-48 -/
  pearson : ι → ι → ρ
  /-- common.py:47-57, given the stored correlation; may raise at ±1 -/
  t0 : ι → ι → ρ → Except PyErr Bool
  /-- common.py:121-143 for the number of control variables, `x`, `y`, `z` and the three stored correlations;
  `none` if the denominator is zero -/
  t1 : Nat → ι → ι → ι → ρ → ρ → ρ → Except PyErr (Option Bool)
  /-- common.py:210-244 for the combination; `none` if the determinant is zero -/
  tm : List ι → Except PyErr (Option Bool)
  /-- common.py:324-340 for the combination -/
  reg : List ι → Except PyErr Bool

variable {ι ρ : Type} [DecidableEq ι]

namespace CI
open Graph

/-- the graphs of the phase -/
abbrev CGraph (ι ρ : Type) := Graph ι (Info ι ρ)
/-- the actions of the phase -/
abbrev CResult (ι ρ : Type) := TestResult ι (Info ι ρ)

/-- a proposed removal with its separating set -/
def removal (x y : ι) (S : List ι) : CResult ι ρ := ⟨x, y, .removeEdgeUndirected, some { sep := some S }⟩

/-- the `DO_NOTHING` answer of a test -/
def keep (x y : ι) : CResult ι ρ := ⟨x, y, .doNothing, some {}⟩

/-- `CalculatePearsonCorrelations.process` (calculation.py:24-57).  `graph.nodes[...]` raises `KeyError`;
`None["correlation"] = ...` raises `TypeError`. -/
def pearsonProcess (T : Tests ι ρ) (c : List ι) (g : CGraph ι ρ) : Except PyErr (Option (List (CResult ι ρ))) :=
  match c with
  | x :: y :: _ =>
    if x ∉ g.nodes then .error .keyError
    else if y ∉ g.nodes then .error .keyError
    else match g.edgeValue x y with
      | .error e => .error e
      | .ok none => .error .typeError
      | .ok (some m) => .ok (some [⟨x, y, .updateEdge, some { m with corr := some (T.pearson x y) }⟩])
  | _ => .error .indexError

/-- `CorrelationCoefficientTest.process` (common.py:34-74) -/
def corrProcess (T : Tests ι ρ) (c : List ι) (g : CGraph ι ρ) : Except PyErr (Option (List (CResult ι ρ))) :=
  match c with
  | x :: y :: _ =>
    if x ∉ g.nodes then .error .keyError
    else if y ∉ g.nodes then .error .keyError
    else match g.edgeValue x y with
      | .error e => .error e
      | .ok none => .error .typeError
      | .ok (some m) =>
        match m.corr with
        | none => .error .keyError
        | some r =>
          match T.t0 x y r with
          | .error e => .error e
          | .ok b => .ok (some [if b then removal x y [] else keep x y])
  | _ => .error .indexError

/-- `graph.edge_value(x, y)["correlation"]` inside `try ... except (KeyError, TypeError)` (common.py:114-119);
`none` if one of the two is caught (`edge_value` itself can only raise `KeyError`) -/
def corrOf (g : CGraph ι ρ) (x y : ι) : Option ρ :=
  match g.edgeValue x y with
  | .ok (some m) => m.corr
  | _ => none

/-- the loop of `PartialCorrelationTest.process` (common.py:103-165): `c` is the combination, `acc` the results so far,
`done` the set `already_deleted_edges` -/
def partialLoop (T : Tests ι ρ) (g : CGraph ι ρ) (c : List ι) :
    List ι → List (CResult ι ρ) → List (ι × ι) → Except PyErr (Option (List (CResult ι ρ)))
  | [], acc, _ => .ok (some acc)
  | z :: zs, acc, done =>
    match c.filter (fun n => decide (n ≠ z)) with
    | x :: y :: _ =>
      if !g.edgeExists x y || decide ((y, x) ∈ done) then partialLoop T g c zs acc done
      else match corrOf g x y, corrOf g x z, corrOf g y z with
        | some a, some b, some d =>
          match T.t1 (c.length - 2) x y z a b d with
          | .error e => .error e
          | .ok none => .ok none
          | .ok (some true) => partialLoop T g c zs (acc ++ [removal x y [z]]) ((x, y) :: done)
          | .ok (some false) => partialLoop T g c zs (acc ++ [keep x y]) done
        | _, _, _ => .ok none
    | _ => .error .indexError

/-- `PartialCorrelationTest.process` (common.py:86-165); the first loop (98-100) only looks the nodes up -/
def partialProcess (T : Tests ι ρ) (c : List ι) (g : CGraph ι ρ) : Except PyErr (Option (List (CResult ι ρ))) :=
  if c.all (fun n => decide (n ∈ g.nodes)) then partialLoop T g c c [] [] else .error .keyError

/-- the recorded separating set `nodes_set - {x, y}` (common.py:245-255) -/
def sepOf (x y : ι) (S : List ι) : List ι := S.dedup.filter (fun z => decide (z ≠ x) && decide (z ≠ y))

/-- `ExtendedPartialCorrelationTestMatrix.process` (common.py:178-279) -/
def matrixProcess (T : Tests ι ρ) (c : List ι) (g : CGraph ι ρ) : Except PyErr (Option (List (CResult ι ρ))) :=
  match c with
  | x :: y :: S =>
    if x ∉ g.nodes then .error .keyError
    else if y ∉ g.nodes then .error .keyError
    else if !g.edgeExists x y then .ok none
    else if !g.edges.has x then .error .keyError
    else if y ∉ g.otherNeighbours x then .error .keyError
    else if !S.all (fun z => decide (z ∈ g.otherNeighbours x) && decide (z ≠ y)) then .ok none
    else match T.tm (x :: y :: S) with
      | .error e => .error e
      | .ok none => .ok none
      | .ok (some b) => .ok (some [if b then removal x y (sepOf x y S) else keep x y])
  | _ => .error .indexError

/-- `ExtendedPartialCorrelationTestLinearRegression.process` (common.py:316-376): no membership check, and the
neighbours include soft-deleted ones -/
def regressionProcess (T : Tests ι ρ) (c : List ι) (g : CGraph ι ρ) : Except PyErr (Option (List (CResult ι ρ))) :=
  match c with
  | x :: y :: S =>
    if x ∉ g.nodes then .error .keyError
    else if y ∉ g.nodes then .error .keyError
    else if !g.edgeExists x y then .ok none
    else if !g.edges.has x then .error .keyError
    else if !g.edges.has2 x y then .error .keyError
    else if !S.all (fun z => decide (z ∈ g.nodes)) then .error .keyError
    else match T.reg (x :: y :: S) with
      | .error e => .error e
      | .ok b => .ok (some [if b then removal x y (sepOf x y S) else keep x y])
  | _ => .error .indexError

/-- `AllCombinationsGenerator` as the generator of a step (unchunked, causy/interfaces.py:296) -/
def allGen {δ : Type} (s : Settings) (g : Graph ι δ) : Except PyErr (List (Graph ι δ → List (Yield ι))) :=
  match allCombinations s g.nodes with
  | .error e => .error e
  | .ok cs => .ok [fun _ => cs.map .single]

/-- `CalculatePearsonCorrelations` with its default generator (calculation.py:18-22) -/
def pearsonStep (T : Tests ι ρ) : Step ι (Info ι ρ) where
  name := "CalculatePearsonCorrelations"
  chunked := false
  needsUnapplied := false
  applySync := false
  gen := allGen ⟨2, 2⟩
  process := fun c g _ => pearsonProcess T c g

/-- `CorrelationCoefficientTest` with its default generator (common.py:28-32) -/
def corrStep (T : Tests ι ρ) : Step ι (Info ι ρ) where
  name := "CorrelationCoefficientTest"
  chunked := false
  needsUnapplied := false
  applySync := false
  gen := allGen ⟨2, 2⟩
  process := fun c g _ => corrProcess T c g

/-- `PartialCorrelationTest` with its default generator (common.py:80-84) -/
def partialStep (T : Tests ι ρ) : Step ι (Info ι ρ) where
  name := "PartialCorrelationTest"
  chunked := false
  needsUnapplied := false
  applySync := false
  gen := allGen ⟨3, 3⟩
  process := fun c g _ => partialProcess T c g

/-- `ExtendedPartialCorrelationTestMatrix` (common.py:171-176) with any configuration of its generator -/
def matrixStep (T : Tests ι ρ) (cfg : NbCfg ι) : Step ι (Info ι ρ) where
  name := "ExtendedPartialCorrelationTestMatrix"
  chunked := cfg.chunked
  needsUnapplied := false
  applySync := false
  gen := pairsWithNeighbours cfg
  process := fun c g _ => matrixProcess T c g

/-- `ExtendedPartialCorrelationTestLinearRegression` (common.py:309-314) with any configuration of its generator -/
def regressionStep (T : Tests ι ρ) (cfg : NbCfg ι) : Step ι (Info ι ρ) where
  name := "ExtendedPartialCorrelationTestLinearRegression"
  chunked := cfg.chunked
  needsUnapplied := false
  applySync := false
  gen := pairsWithNeighbours cfg
  process := fun c g _ => regressionProcess T c g

end CI
end Verif
