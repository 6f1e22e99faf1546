import Mathlib.Analysis.Real.Sqrt

/-!
# Specifications: correlation of residuals

Independent of the model: textbook definitions used in the statements of `Verif/Stats/Props.lean`.
-/

namespace Verif
namespace Stats
variable {n : ℕ}

/-- the column minus its average -/
noncomputable def centred (x : Fin n → ℝ) : Fin n → ℝ := fun i => x i - (∑ j, x j) / n

/-- what is left of a column after a linear prediction, with coefficients `β`, from the columns `S` -/
noncomputable def residual {k : ℕ} (x : Fin n → ℝ) (S : Fin k → Fin n → ℝ) (β : Fin k → ℝ) : Fin n → ℝ :=
  fun i => centred x i - ∑ s, β s * centred (S s) i

/-- `β` are coefficients of a least squares regression of `x` on the columns `S` (normal equations) -/
def LeastSquares {k : ℕ} (x : Fin n → ℝ) (S : Fin k → Fin n → ℝ) (β : Fin k → ℝ) : Prop :=
  ∀ s, ∑ i, residual x S β i * centred (S s) i = 0

/-- the cosine of two vectors -/
noncomputable def cosine (u v : Fin n → ℝ) : ℝ := (∑ i, u i * v i) / √((∑ i, u i * u i) * ∑ i, v i * v i)

/-- not all entries are equal -/
def Varies (x : Fin n → ℝ) : Prop := ∃ i j, x i ≠ x j

/-- No linear combination of the centred columns vanishes, except the trivial one. -/
def NoLinearRelation {k : ℕ} (cols : Fin k → Fin n → ℝ) : Prop :=
  ∀ a : Fin k → ℝ, (∀ i, ∑ j, a j * centred (cols j) i = 0) → a = 0

end Stats
end Verif
