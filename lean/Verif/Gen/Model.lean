import Verif.Paths.Model

/-!
# Generators (causy/generators.py)

What a generator yields is modelled by two constructors: a chunk (a list of node combinations) or a single
combination.  A generator is consumed lazily, so it is modelled by a list of thunks: the thunks are fixed when the
generator is started, each thunk is evaluated on the graph as it is when the consumer reaches it.

Simplifications:
* python iterates live dictionaries; the thunks fix the dictionary keys at the start.  Property C27 shows that
  applying actions never changes the keys unless a restore action is applied, so this is exact for every step
  shipped with a chunked generator.
* `checked_combinations` (causy/generators.py:139, 145-148) is omitted: the pairs come from dictionary keys, so no
  pair occurs twice in one pass.
* log messages are omitted.
-/

namespace Verif

/-- `itertools.combinations(l, k)` for `k ≥ 0`. -/
def combinations {α : Type} : List α → Nat → List (List α)
  | _, 0 => [[]]
  | [], _ + 1 => []
  | x :: xs, k + 1 => (combinations xs k).map (x :: ·) ++ combinations xs (k + 1)

/-- `range(a, b)` on python integers. -/
def pyRange (a b : Int) : List Int := (List.range (b - a).toNat).map (fun i : Nat => a + (i : Int))

/-- `ComparisonSettings` (causy/models.py:25-27); `max = 0` is `AS_MANY_AS_FIELDS`
(causy/interfaces.py:26). -/
structure Settings where
  min : Int
  max : Int
  deriving DecidableEq, Repr

/-- The computation of `start` and `stop` shared by `AllCombinationsGenerator` (causy/generators.py:32-49) and
`PairsWithNeighboursGenerator` (causy/generators.py:118-136) for `n` nodes; `none` is the early `return`. -/
def Settings.bounds (s : Settings) (n : Nat) : Option (Int × Int) :=
  if s.min > (n : Int) then none
  else
    let stop := if s.max = 0 then (n : Int) + 1 else s.max + 1
    let stop := if stop > (n : Int) + 1 then (n : Int) + 1 else stop
    if stop < s.min then none else some (s.min, stop)

/-- The combinations of all sizes in a list of sizes; `itertools.combinations` raises `ValueError` for a negative
size. -/
def combosOfSizes {α : Type} (l : List α) : List Int → Except PyErr (List (List α))
  | [] => .ok []
  | k :: ks =>
    if k < 0 then .error .valueError
    else match combosOfSizes l ks with
      | .error e => .error e
      | .ok rest => .ok (combinations l k.toNat ++ rest)

/-- `AllCombinationsGenerator.generate` (causy/generators.py:29-54) on the node list. -/
def allCombinations {ι : Type} (s : Settings) (nodes : List ι) : Except PyErr (List (List ι)) :=
  match s.bounds nodes.length with
  | none => .ok []
  | some (start, stop) => combosOfSizes nodes (pyRange start stop)

/-- one `yield` -/
inductive Yield (ι : Type)
  | chunk (cs : List (List ι))
  | single (c : List ι)
  deriving DecidableEq, Repr

/-- all combinations handed out by a list of yields -/
def Yield.combos {ι : Type} : Yield ι → List (List ι)
  | .chunk cs => cs
  | .single c => [c]

namespace Graph
variable {ι δ : Type} [DecidableEq ι]

/-- the list `edges` of `PairsWithEdgesInBetweenGenerator.generate` (causy/generators.py:81-87) -/
def liveEdgeList (g : Graph ι δ) : List (ι × ι) :=
  g.edges.keys.flatMap (fun f =>
    ((g.edges.keys2 f).filter (fun t => g.directedEdgeExists f t)).map (fun t => (f, t)))

/-- consecutive slices `edges[i : i + n]`, `n > 0` (causy/generators.py:90-91); the first argument bounds the
number of slices -/
def slices {α : Type} (n : Nat) : Nat → List α → List (List α)
  | 0, _ => []
  | _, [] => []
  | fuel + 1, l => l.take n :: slices n fuel (l.drop n)

/-- `PairsWithEdgesInBetweenGenerator.generate` (causy/generators.py:78-94).  `range(0, len, 0)` raises
`ValueError`. -/
def pairsWithEdges (chunked : Bool) (chunkSize : Nat) (g : Graph ι δ) : Except PyErr (List (Yield ι)) :=
  let es := g.liveEdgeList.map (fun e => [e.1, e.2])
  if chunked then
    if chunkSize = 0 then .error .valueError
    else .ok ((slices chunkSize es.length es).map .chunk ++ es.map .single)
  else .ok (es.map .single)

/-- configuration of `PairsWithNeighboursGenerator` (causy/generators.py:105-113): the orders python does not fix
are functions of the position (size, node, neighbour), each of which is visited once -/
structure NbCfg (ι : Type) where
  settings : Settings
  chunked : Bool
  shuffle : Bool
  /-- iteration order of the set `other_neighbours` -/
  setOrd : Nat → ι → ι → List ι → List ι
  /-- `random.shuffle` -/
  shuf : Nat → ι → ι → List (List ι) → List (List ι)

/-- `setOrd` only fixes an order of a set, `shuf` only permutes -/
structure NbCfg.Valid (cfg : NbCfg ι) : Prop where
  setOrd : ∀ k x y, SetOrder (cfg.setOrd k x y)
  shuf : ∀ k x y l, (cfg.shuf k x y l).Perm l

/-- `other_neighbours` (causy/generators.py:154-165 and
causy/causal_discovery/constraint/independence_tests/common.py:199-206), as the list from which the set is built,
before `neighbour` is removed -/
def otherNeighbours (g : Graph ι δ) (x : ι) : List ι :=
  (g.edges.keys2 x).filter (fun k => g.directedEdgeExists k x)

/-- the body of the inner loop (causy/generators.py:142-190) for one size, node and neighbour, evaluated on the
current graph -/
def nbBody (cfg : NbCfg ι) (k : Nat) (x y : ι) (g : Graph ι δ) : List (Yield ι) :=
  if !g.directedEdgeExists x y then []
  else if k = 2 then [.chunk [[x, y]]]
  else
    let others := cfg.setOrd k x y ((g.otherNeighbours x).filter (fun z => decide (z ≠ y)))
    let combos := combinations others (k - 2)
    let combos := if cfg.shuffle then cfg.shuf k x y combos else combos
    if cfg.chunked then [.chunk (combos.map (fun S => x :: y :: S))]
    else combos.map (fun S => .single (x :: y :: S))

/-- the loop nest over sizes, nodes and row keys (causy/generators.py:137-142) -/
def nbPositions (g : Graph ι δ) (start stop : Int) : List (Nat × ι × ι) :=
  (pyRange start stop).flatMap (fun k => g.edges.keys.flatMap (fun x =>
    (g.edges.keys2 x).map (fun y => (k.toNat, x, y))))

/-- `PairsWithNeighboursGenerator.generate` (causy/generators.py:115-190) as thunks over the current graph -/
def pairsWithNeighbours (cfg : NbCfg ι) (g : Graph ι δ) : Except PyErr (List (Graph ι δ → List (Yield ι))) :=
  match cfg.settings.bounds g.nodes.length with
  | none => .ok []
  | some (start, stop) =>
    if start < 2 then .error .valueError
    else .ok ((g.nbPositions start stop).map (fun p => nbBody cfg p.1 p.2.1 p.2.2))

/-- all yields if the graph does not change while the generator runs -/
def forceOn (g : Graph ι δ) (ts : List (Graph ι δ → List (Yield ι))) : List (Yield ι) := ts.flatMap (fun t => t g)

end Graph

/-- `RandomSampleGenerator.generate` (causy/generators.py:217-226): `rolls i` is the result of the `i`-th
`random.randint(0, every_nth)`, which raises `ValueError` if `every_nth < 0`. -/
def randomSample {α : Type} (everyNth : Int) (rolls : Nat → Int) : Nat → List α → Except PyErr (List α)
  | _, [] => .ok []
  | i, x :: xs =>
    if everyNth < 0 then .error .valueError
    else match randomSample everyNth rolls (i + 1) xs with
      | .error e => .error e
      | .ok rest => .ok (if rolls i = 0 then x :: rest else rest)

end Verif
