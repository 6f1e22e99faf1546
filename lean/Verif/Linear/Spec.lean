import Mathlib.Analysis.SpecialFunctions.Log.Basic
import Verif.Stats.Spec
import Verif.Sample.Spec

/-!
# Specification vocabulary: data from linear equations, and what the tests can see
-/

namespace Verif
namespace Linear
open Stats
variable {ι : Type} {n : ℕ}

/-- the columns have sample covariance zero -/
def Uncorrelated (x y : Fin n → ℝ) : Prop := ∑ i, centred x i * centred y i = 0

/-- no linear combination of the centred columns of `N` vanishes, except the trivial one -/
def NoRelation [DecidableEq ι] (col : ι → Fin n → ℝ) (N : List ι) : Prop :=
  ∀ a : ι → ℝ, (∀ i, ∑ v ∈ N.toFinset, a v * centred (col v) i = 0) → ∀ v ∈ N, a v = 0

/-- The columns of the variables `N` come from linear equations along an acyclic list of edges, and the noise columns vary and
are uncorrelated in the sample. -/
structure LinearData [DecidableEq ι] (edges : List (Sample.SEdge ι ℝ)) (noise col : ι → Fin n → ℝ) (N : List ι) : Prop where
  acyclic : Dag.Acyclic (Sample.HasEdge edges)
  vars : ∀ v, v ∈ N ↔ Sample.Mentioned edges v
  equations : Sample.Structural edges noise col
  uncorrelated : ∀ v ∈ N, ∀ w ∈ N, v ≠ w → Uncorrelated (noise v) (noise w)
  varies : ∀ v ∈ N, Varies (noise v)

/-- `r` is a correlation of what linear regressions on the columns of `S` leave of the columns of `x` and `y` -/
def PartialCorr (col : ι → Fin n → ℝ) (x y : ι) (S : List ι) (r : ℝ) : Prop :=
  ∃ β γ, LeastSquares (col x) (fun s => col (S.get s)) β ∧ LeastSquares (col y) (fun s => col (S.get s)) γ ∧
    r = cosine (residual (col x) (fun s => col (S.get s)) β) (residual (col y) (fun s => col (S.get s)) γ)

/-- Fisher's statistic for a partial correlation `r` with the given numbers of samples and of conditioning variables -/
noncomputable def statistic (samples controls : ℕ) (r : ℝ) : ℝ :=
  |1 / 2 * Real.log ((1 + r) / (1 - r))| * √((samples : ℝ) - controls - 3)

/-- `x`, `y` and `S` are distinct variables of `N` -/
def Question (N : List ι) (x y : ι) (S : List ι) : Prop := (x :: y :: S).Nodup ∧ ∀ z ∈ x :: y :: S, z ∈ N

/-- No dependence is hidden: if `x` and `y` are not d-separated by `S`, the statistic of their partial correlation reaches the
critical value `q`. -/
def Visible (E : ι → ι → Prop) (N : List ι) (q : ℝ) (col : ι → Fin n → ℝ) : Prop :=
  ∀ x y S, Question N x y S → ¬ Dag.DSep E x y S → ∀ r, PartialCorr col x y S r → q ≤ statistic n S.length r

/-- a strictly increasing function with value 1/2 at 0, such as the distribution function of the standard normal
distribution -/
structure NormalLike (Φ : ℝ → ℝ) : Prop where
  mono : StrictMono Φ
  half : Φ 0 = 1 / 2

/-- the average is zero -/
def MeanZero (x : Fin n → ℝ) : Prop := ∑ i, x i = 0

/-- the coefficients solve the least squares problem `min ‖x - Σ β s • Z s‖`, without intercept (normal equations) -/
def LeastSquaresRaw {k : ℕ} (x : Fin n → ℝ) (Z : Fin k → Fin n → ℝ) (β : Fin k → ℝ) : Prop :=
  ∀ s, ∑ i, (x i - ∑ j, β j * Z j i) * Z s i = 0

/-- the solver returns a solution of every least squares problem -/
def Solves (solve : (k : ℕ) → (Fin k → Fin n → ℝ) → (Fin n → ℝ) → Fin k → ℝ) : Prop :=
  ∀ k Z x, LeastSquaresRaw x Z (solve k Z x)

/-- the statistic of the t test for a partial correlation `r` -/
noncomputable def tStatistic (samples controls : ℕ) (r : ℝ) : ℝ :=
  |r| * √(((samples : ℝ) - 2 - controls) / (1 - r ^ 2))

end Linear
end Verif
