import Verif.Sample.Model
import Verif.Dag.Spec

/-!
# Specifications: topological orders and structural equations
-/

namespace Verif
namespace Sample
variable {ι R : Type} [DecidableEq ι]

/-- the list of edges has an edge from `a` to `b` -/
def HasEdge (edges : List (SEdge ι R)) (a b : ι) : Prop := ∃ e ∈ edges, e.src = a ∧ e.dst = b

/-- some edge starts or ends in `x` -/
def Mentioned (edges : List (SEdge ι R)) (x : ι) : Prop := ∃ e ∈ edges, e.src = x ∨ e.dst = x

/-- `l` lists every variable exactly once, sources before targets -/
def TopologicalOrder (edges : List (SEdge ι R)) (l : List ι) : Prop :=
  l.Nodup ∧ (∀ x, x ∈ l ↔ Mentioned edges x) ∧ ∀ a b, HasEdge edges a b → l.idxOf a < l.idxOf b

/-- Every column is its own noise plus, for each incoming edge in the order of the list, the coefficient times the column of
the source. -/
def Structural [Add R] [Mul R] {size : ℕ} (edges : List (SEdge ι R)) (noise col : ι → Fin size → R) : Prop :=
  ∀ v, Mentioned edges v → ∀ i, col v i =
    (edges.filter (fun e => e.dst = v)).foldl (fun acc e => acc + e.value * col e.src i) (noise v i)

/-- The value of a time series at the time `t ≥ 1`: the sum over the incoming edges of the coefficient times the value of the
source `lag` steps ago, or its initial value if that is before the start, plus noise. -/
def TimeSeries [Add R] [Mul R] [Zero R] (edges : List (SEdge ι R)) (size : ℕ) (init : ι → R) (noise : ι → ℕ → R)
    (col : ι → ℕ → R) : Prop :=
  ∀ v, Mentioned edges v → col v 0 = init v ∧ ∀ t, 1 ≤ t → t < size → col v t =
    (edges.filter (fun e => e.dst = v)).foldl
      (fun acc e => acc + e.value * if e.time.natAbs ≤ t then col e.src (t - e.time.natAbs) else init e.src) 0 + noise v t

end Sample
end Verif
