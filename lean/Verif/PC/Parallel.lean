import Verif.PC.Model
import Verif.Par.Model

/-!
# The algorithm `ParallelPC` (causy/causal_discovery/constraint/algorithms/pc.py:152-209)
-/

namespace Verif

/-- `RandomSampleGenerator.generate` (causy/generators.py:217-226) around another generator, as thunks over the current
graph: `keep i` is what the rolled dice leave of the combinations of the `i`-th thunk.  A negative `every_nth` is not
modelled here (see `randomSample`). -/
def sampleGen {ι δ : Type} (keep : Nat → List (Yield ι) → List (Yield ι))
    (gen : Graph ι δ → Except PyErr (List (Graph ι δ → List (Yield ι)))) (g : Graph ι δ) :
    Except PyErr (List (Graph ι δ → List (Yield ι))) :=
  match gen g with
  | .error e => .error e
  | .ok ts => .ok (ts.mapIdx (fun i t g => keep i (t g)))

namespace PC
open Graph CI Orient
variable {ι ρ : Type} [DecidableEq ι]

/-- results of `random.shuffle` in `PairsWithNeighboursGenerator` -/
abbrev Shuf (ι : Type) := Nat → ι → ι → List (List ι) → List (List ι)

/-- `PairsWithNeighboursGenerator(chunked=False, shuffle_combinations=True, comparison_settings=ComparisonSettings(min=4,
max=AS_MANY_AS_FIELDS))` (algorithms/pc.py:172-178 and 189-195) -/
def shuffled (ord : NbOrd ι) (shuf : Shuf ι) : NbCfg ι where
  settings := ⟨4, 0⟩
  chunked := false
  shuffle := true
  setOrd := ord
  shuf := shuf

/-- the sampled extended test (algorithms/pc.py:165-182) -/
def sampledStep (T : Tests ι ρ) (cfg : NbCfg ι) (keep : Nat → List (Yield ι) → List (Yield ι)) : Step ι (Info ι ρ) :=
  { matrixStep T cfg with gen := sampleGen keep (pairsWithNeighbours cfg) }

/-- what python does not fix in `ParallelPC`: set orders, shuffles and dice -/
structure ParChoice (ι : Type) where
  ord1 : NbOrd ι
  shuf1 : Shuf ι
  keep : Nat → List (Yield ι) → List (Yield ι)
  ord2 : NbOrd ι
  shuf2 : Shuf ι

/-- the batch sizes of the three parallel steps; `⟨50000, 5000, 20000⟩` in the code -/
structure Sizes where
  triples : Nat
  sampled : Nat
  extended : Nat

/-- `chunk_size_parallel_processing` (algorithms/pc.py:161, 169, 187) -/
def codeSizes : Sizes := ⟨50000, 5000, 20000⟩

/-- the first five steps of `ParallelPC` (algorithms/pc.py:154-196) -/
def parallelSkeleton (T : Tests ι ρ) (z : Sizes) (c : ParChoice ι) : List (Stage ι (Info ι ρ)) :=
  [.seq (.plain (pearsonStep T)), .seq (.plain (corrStep T)), .par (partialStep T) z.triples,
    .par (sampledStep T (shuffled c.ord1 c.shuf1) c.keep) z.sampled, .par (matrixStep T (shuffled c.ord2 c.shuf2)) z.extended]

/-- `ParallelPC` without its last step (algorithms/pc.py:152-197) -/
def parallelPC (T : Tests ι ρ) (z : Sizes) (c : ParChoice ι) (oc : Ord ι ρ) (o : Ords ι ρ) : List (Stage ι (Info ι ρ)) :=
  parallelSkeleton T z c ++ (orientationPhase oc o).map .seq

end PC
end Verif
