import Mathlib.Data.List.Dedup
import Mathlib.Data.List.Sort
import Mathlib.Algebra.Ring.Defs
import Verif.Graph.Model

/-!
# The sample generators (causy/sample_generator.py)

Numbers are an arbitrary type `R` with addition and multiplication; no algebraic law is used, so rounding arithmetic is
included.  A tensor of length `size` is a function `Fin size → R`, a python list of scalars is a list.
`random_fn` is a stream `rand : ℕ → R`: the `i`-th call returns `rand i`.
-/

namespace Verif
namespace Sample
variable {ι R : Type} [DecidableEq ι]

/-- `SampleEdge` (sample_generator.py:49-58).  `time` is `from_node.point_in_time`; the code never reads the point in time of
`to_node` except in a log message. -/
structure SEdge (ι R : Type) where
  src : ι
  dst : ι
  value : R
  time : Int := 0

/-- `_get_edges_for_node_to` (sample_generator.py:107-113) -/
def edgesTo (edges : List (SEdge ι R)) (node : ι) : List (SEdge ι R) := edges.filter (fun e => e.dst = node)

/-- The set computed by `_find_variables_in_edges` (sample_generator.py:96-105), as a duplicate free list; its order is not
used by `IIDSampleGenerator`, which sorts it. -/
def variableSet (edges : List (SEdge ι R)) : List ι := (edges.flatMap (fun e => [e.src, e.dst])).dedup

/-- the condition of sample_generator.py:152-154 -/
def ready (edges : List (SEdge ι R)) (sorted : List ι) (node : ι) : Bool :=
  (edgesTo edges node).all (fun e => e.src ∈ sorted)

/-- `topologic_sort` (sample_generator.py:142-158).  The outer `while` loop runs once per unit of fuel; `none` means that it
is still running.  If no node is ready the inner loop changes nothing, and the outer loop tries again. -/
def topologicSort (edges : List (SEdge ι R)) : ℕ → List ι → List ι → Option (List ι)
  | _, [], sorted => some sorted
  | 0, _ :: _, _ => none
  | fuel + 1, n :: ns, sorted =>
    match (n :: ns).find? (ready edges sorted) with
    | some node => topologicSort edges fuel ((n :: ns).erase node) (sorted ++ [node])
    | none => topologicSort edges fuel (n :: ns) sorted

/-- `IIDSampleGenerator.__init__` (sample_generator.py:132-140): the value of `self._variables`; `sorted` is a parameter. -/
def iidVariables (sorted : List ι → List ι) (fuel : ℕ) (edges : List (SEdge ι R)) : Option (List ι) :=
  topologicSort edges fuel (sorted (variableSet edges)) []

/-- the columns of noise (sample_generator.py:168-172); the `k`-th variable uses the draws `k * size, ...` -/
def initNoise (size : ℕ) (rand : ℕ → R) : List ι → ℕ → Dict ι (Fin size → R) → Dict ι (Fin size → R)
  | [], _, d => d
  | v :: vs, k, d => initNoise size rand vs (k + size) (d.set v (fun i => rand (k + i)))

/-- the inner loop of sample_generator.py:187-189 -/
def addIncoming [Add R] [Mul R] {size : ℕ} (tgt : ι) :
    List (SEdge ι R) → Dict ι (Fin size → R) → Except PyErr (Dict ι (Fin size → R))
  | [], d => .ok d
  | e :: es, d =>
    match d.get? tgt, d.get? e.src with
    | some x, some y => addIncoming tgt es (d.set tgt (fun i => x i + e.value * y i))
    | _, _ => .error .keyError

/-- the outer loop of sample_generator.py:186-189 -/
def addAllIncoming [Add R] [Mul R] {size : ℕ} (edges : List (SEdge ι R)) :
    List ι → Dict ι (Fin size → R) → Except PyErr (Dict ι (Fin size → R))
  | [], d => .ok d
  | tgt :: rest, d =>
    match addIncoming tgt (edgesTo edges tgt) d with
    | .ok d' => addAllIncoming edges rest d'
    | .error e => .error e

/-- `IIDSampleGenerator._generate_data` (sample_generator.py:160-190) -/
def iidData [Add R] [Mul R] (size : ℕ) (rand : ℕ → R) (edges : List (SEdge ι R)) (vars : List ι) :
    Except PyErr (Dict ι (Fin size → R)) :=
  addAllIncoming edges vars (initNoise size rand vars 0 Dict.empty)

/-- the graph part of `IIDSampleGenerator.generate` (sample_generator.py:214-228); `graph.nodes[...]` raises `KeyError` for an
unknown node -/
def iidGraph {δ : Type} (m0 : δ) (edges : List (SEdge ι R)) (vars : List ι) : PyM (Graph ι δ) Unit := do
  PyM.forEach vars Graph.addNode
  PyM.forEach edges (fun e => do
    let g ← PyM.get
    if e.src ∉ g.nodes ∨ e.dst ∉ g.nodes then PyM.raise .keyError
    else Graph.addDirectedEdge e.src e.dst m0)

/-- `IIDSampleGenerator.generate` (sample_generator.py:207-230) -/
def iidGenerate [Add R] [Mul R] {δ : Type} (m0 : δ) (size : ℕ) (rand : ℕ → R) (edges : List (SEdge ι R)) (vars : List ι) :
    Except PyErr (Dict ι (Fin size → R) × Graph ι δ) :=
  match iidData size rand edges vars with
  | .error e => .error e
  | .ok out =>
    match iidGraph m0 edges vars Graph.empty with
    | (.ok (), g) => .ok (out, g)
    | (.error e, _) => .error e

/-! ## Time series -/

/-- `xs[i]` for a python list: negative positions count from the end -/
def pyIndex {α : Type} (xs : List α) (i : Int) : Except PyErr α :=
  let j := if i < 0 then i + xs.length else i
  if j < 0 then .error .indexError
  else match xs[j.toNat]? with
    | some x => .ok x
    | none => .error .indexError

/-- the loop over the incoming edges (sample_generator.py:284-296), started with `result`.  `init` is the dictionary of initial
values, which has a value for every variable. -/
def tsSum [Add R] [Mul R] (init : ι → R) (d : Dict ι (List R)) (t : ℕ) : List (SEdge ι R) → R → Except PyErr R
  | [], result => .ok result
  | e :: es, result =>
    if (e.time.natAbs : ℕ) > t then tsSum init d t es (result + e.value * init e.src)
    else
      match d.get? e.src with
      | none => .error .keyError
      | some col =>
        match pyIndex col (t + e.time) with
        | .error err => .error err
        | .ok x => tsSum init d t es (result + e.value * x)

/-- the loop over the variables at one point in time (sample_generator.py:280-299); `k` counts the calls of `random_fn` -/
def tsStep [Add R] [Mul R] [Zero R] (init : ι → R) (rand : ℕ → R) (edges : List (SEdge ι R)) (t : ℕ) :
    List ι → ℕ → Dict ι (List R) → Except PyErr (Dict ι (List R))
  | [], _, d => .ok d
  | v :: vs, k, d =>
    match tsSum init d t (edgesTo edges v) 0 with
    | .error e => .error e
    | .ok s =>
      match d.get? v with
      | none => .error .keyError
      | some col => tsStep init rand edges t vs (k + 1) (d.set v (col ++ [s + rand k]))

/-- the loop over time (sample_generator.py:279): `steps` more iterations, starting with `t` -/
def tsLoop [Add R] [Mul R] [Zero R] (init : ι → R) (rand : ℕ → R) (edges : List (SEdge ι R)) (vars : List ι) :
    ℕ → ℕ → Dict ι (List R) → Except PyErr (Dict ι (List R))
  | 0, _, d => .ok d
  | steps + 1, t, d =>
    match tsStep init rand edges t vars ((t - 1) * vars.length) d with
    | .error e => .error e
    | .ok d' => tsLoop init rand edges vars steps (t + 1) d'

/-- `TimeseriesSampleGenerator._generate_data` (sample_generator.py:267-304).  `vars` is the set of variables in the order in
which python iterates over it.  The scales of the initial values (sample_generator.py:343-453) are in `Sample/Initial`. -/
def tsData [Add R] [Mul R] [Zero R] (init : ι → R) (rand : ℕ → R) (edges : List (SEdge ι R)) (vars : List ι) (size : ℕ) :
    Except PyErr (Dict ι (List R)) :=
  tsLoop init rand edges vars (size - 1) 1 (vars.foldl (fun d v => d.set v [init v]) Dict.empty)

/-- the graph of `TimeseriesSampleGenerator.generate` (sample_generator.py:312-339).  The id `f"{i}-t{t}"` is the pair
`(i, t)`; the text determines the pair, since the number after the last `-t` is `t`. -/
def tsGraph {δ : Type} (m0 : δ) (edges : List (SEdge ι R)) (vars : List ι) (size : ℕ) : PyM (Graph (ι × ℕ) δ) Unit := do
  PyM.forEach vars (fun v => PyM.forEach (List.range size) (fun t => Graph.addNode (v, t)))
  PyM.forEach (List.range' 1 (size - 1)) (fun t => PyM.forEach edges (fun e =>
    if t < e.time.natAbs then Pure.pure ()
    else do
      let g ← PyM.get
      if (e.src, t - e.time.natAbs) ∉ g.nodes ∨ (e.dst, t) ∉ g.nodes then PyM.raise .keyError
      else Graph.addDirectedEdge (e.src, t - e.time.natAbs) (e.dst, t) m0))

/-- `TimeseriesSampleGenerator.generate` (sample_generator.py:306-341); the constructor has raised `ValueError` if there are no
edges (sample_generator.py:261-263) -/
def tsGenerate [Add R] [Mul R] [Zero R] {δ : Type} (m0 : δ) (init : ι → R) (rand : ℕ → R) (edges : List (SEdge ι R))
    (vars : List ι) (size : ℕ) : Except PyErr (Dict ι (List R) × Graph (ι × ℕ) δ) :=
  if edges = [] then .error .valueError
  else
    match tsData init rand edges vars size with
    | .error e => .error e
    | .ok out =>
      match tsGraph m0 edges vars size Graph.empty with
      | (.ok (), g) => .ok (out, g)
      | (.error e, _) => .error e

end Sample
end Verif
