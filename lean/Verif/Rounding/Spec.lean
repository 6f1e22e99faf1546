import Verif.Rounding.Model
import Verif.Effects.Spec
import Verif.EndToEnd.WholeSpec

/-!
# Specification: an arithmetic of precision `u`

The usual error bounds of numerical linear algebra.  They are required only where the numbers do not exceed `1 / u`, so that
overflow is allowed beyond that, and there is always an absolute error besides the relative one, so that underflow is allowed.
`u` also includes the factors that depend on the sizes of the sums and matrices.
-/

namespace Verif
namespace Rounding
variable {n : ℕ}

/-- the sum of the sizes of the entries -/
def size {k m : ℕ} (C : Matrix (Fin k) (Fin m) ℝ) : ℝ := ∑ i, ∑ j, |C i j|

/-- `C'` differs from `C` only by rounding -/
def Backward (u : ℝ) {k m : ℕ} (C C' : Matrix (Fin k) (Fin m) ℝ) : Prop := ∀ i j, |C' i j - C i j| ≤ u * (1 + size C)

/-- The computed value is the exact one up to rounding. -/
def Computes (u exact computed : ℝ) : Prop := |exact| ≤ 1 / u → |computed - exact| ≤ u * (1 + |exact|)

/-- An arithmetic of precision `u` with the distribution function `Φ`.  Multiplication is commutative, as in IEEE 754.  Sums,
standard deviations and covariances have an error relative to the size of the data.  The determinant and the columns of the
inverse are those of a matrix that differs only by rounding from the given one. -/
structure Arith.Precise (A : Arith) (Φ : ℝ → ℝ) (u : ℝ) : Prop where
  mul_comm : ∀ a b, A.mul a b = A.mul b a
  add : ∀ a b, Computes u (a + b) (A.add a b)
  sub : ∀ a b, Computes u (a - b) (A.sub a b)
  mul : ∀ a b, Computes u (a * b) (A.mul a b)
  div : ∀ a b, b ≠ 0 → Computes u (a / b) (A.div a b)
  sqrt : ∀ a, 0 ≤ a → Computes u (√a) (A.sqrt a)
  log : ∀ a, 0 < a → Computes u (Real.log a) (A.log a)
  cdf : ∀ a, |A.cdf a - Φ a| ≤ u
  sum : ∀ {n : ℕ} (x : Fin n → ℝ), ∑ i, |x i| ≤ 1 / u → |A.sum x - ∑ i, x i| ≤ u * (1 + ∑ i, |x i|)
  std : ∀ {n : ℕ} (x : Fin n → ℝ), ∑ i, |x i| ≤ 1 / u → |A.std x - Stats.stdPop x| ≤ u * (1 + ∑ i, |x i|)
  cov : ∀ {k n : ℕ} (x : Fin k → Fin n → ℝ), size (Matrix.of x) ≤ 1 / u →
    ∀ i j, |A.cov x i j - Stats.torchCov x i j| ≤ u * (1 + size (Matrix.of x) * size (Matrix.of x))
  det : ∀ {k : ℕ} (C : Matrix (Fin k) (Fin k) ℝ), size C ≤ 1 / u → ∃ C', Backward u C C' ∧ Computes u C'.det (A.det C)
  inv : ∀ {k : ℕ} (C : Matrix (Fin k) (Fin k) ℝ), size C ≤ 1 / u → A.det C ≠ 0 →
    ∀ j, ∃ C', Backward u C C' ∧ C'.mulVec (fun i => A.inv C i j) = fun i => if i = j then 1 else 0

/-- weights of a least squares fit of `y` by the columns in `P`, computed with rounding: they are a best fit for columns and a
`y` that differ only by rounding from the given ones -/
def NearFit {κ : Type} (u : ℝ) (P : Finset κ) (X : κ → Fin n → ℝ) (y : Fin n → ℝ) (β : κ → ℝ) : Prop :=
  ∃ X' y', (∀ p ∈ P, ∀ i, |X' p i - X p i| ≤ u * (1 + ∑ q ∈ P, ∑ j, |X q j|)) ∧
    (∀ i, |y' i - y i| ≤ u * (1 + ∑ j, |y j|)) ∧ Effects.BestFit P X' y' β

/-- `torch.linalg.lstsq` (or what is used in its place) solves least squares problems up to rounding -/
def LeastSquaresUpTo (u : ℝ) (lstsq : List (List (Option ℝ)) → List (Option ℝ) → List (Option ℝ)) : Prop :=
  ∀ (k n : ℕ) (cols : Fin k → Fin n → ℝ) (y : Fin n → ℝ), ∑ q, ∑ j, |cols q j| ≤ 1 / u → ∑ j, |y j| ≤ 1 / u →
    ∃ b : Fin k → ℝ, lstsq (List.ofFn (fun j => List.ofFn (fun i => some (cols j i)))) (List.ofFn (fun i => some (y i))) =
      List.ofFn (fun j => some (b j)) ∧ NearFit u Finset.univ cols y b

/-- What a complete algorithm should make of data from linear equations, up to `ε`: the adjacencies of the DAG; an arrow where
all DAGs with the same adjacencies and v-structures have it; and, on each arrow whose target has no undirected edge, the
coefficient of the equation up to `ε` as direct effect. -/
structure LearnedUpTo {ι : Type} [DecidableEq ι] (ε : ℝ) (edges : List (Sample.SEdge ι ℝ)) (g : CI.CGraph ι (Option ℝ)) :
    Prop where
  adjacent : ∀ a b, g.edgeExists a b = true ↔ Dag.Adj (Sample.HasEdge edges) a b
  arrows : ∀ a b, g.Arrow a b ↔ Dag.Compelled (Sample.HasEdge edges) a b
  effects : ∀ a b, g.Arrow a b → (∀ c, ¬ g.Line c b) →
    ∃ m z, g.edgeValue a b = .ok (some m) ∧ m.effect = some (some z) ∧ |z - Linear.weight edges a b| < ε

end Rounding
end Verif
