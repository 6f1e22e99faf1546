import Mathlib.Analysis.Real.Sqrt
import Mathlib.Analysis.SpecialFunctions.Log.Basic
import Mathlib.LinearAlgebra.Matrix.NonsingularInverse
import Verif.Basic.Py

/-!
# The formulas of the numerical code, in exact arithmetic

`CalculatePearsonCorrelations` (causy/common_pipeline_steps/calculation.py:34-48) and the formulas of
causy/causal_discovery/constraint/independence_tests/common.py.

Simplifications: `torch.float64` and Python floats are real numbers, so there is no rounding, overflow or infinity; the
NaN of a division of zero by zero is `none`.
The columns handed to one formula have the same length `n`.  The normal distribution function is a parameter.
-/

namespace Verif
namespace Stats
variable {n : ℕ}

/-- `x.mean()` -/
noncomputable def mean (x : Fin n → ℝ) : ℝ := (∑ i, x i) / n

/-- `x - x.mean()` -/
noncomputable def dev (x : Fin n → ℝ) : Fin n → ℝ := fun i => x i - mean x

/-- `torch.mean((x - x.mean()) * (y - y.mean()))` (calculation.py:37) -/
noncomputable def covPop (x y : Fin n → ℝ) : ℝ := mean (fun i => dev x i * dev y i)

/-- `x.std(unbiased=False)` (calculation.py:38-39) -/
noncomputable def stdPop (x : Fin n → ℝ) : ℝ := √(mean (fun i => dev x i ^ 2))

/-- the value before clamping (calculation.py:40-42); `none` is the NaN of `0 / 0` -/
noncomputable def pearsonRaw (x y : Fin n → ℝ) : Option ℝ :=
  if stdPop x * stdPop y = 0 then none else some (covPop x y / (stdPop x * stdPop y))

/-- calculation.py:45-48 -/
noncomputable def clamp (r : ℝ) : ℝ := if r < -1 then -1 else if 1 < r then 1 else r

/-- the stored correlation (calculation.py:34-50); NaN passes the comparisons unchanged -/
noncomputable def pearson (x y : Fin n → ℝ) : Option ℝ := (pearsonRaw x y).map clamp

/-- `torch.cov(torch.stack(columns))` (common.py:205-207), with torch's default divisor `n - 1` -/
noncomputable def torchCov {k : ℕ} (cols : Fin k → Fin n → ℝ) : Matrix (Fin k) (Fin k) ℝ :=
  Matrix.of (fun a b => (∑ i, dev (cols a) i * dev (cols b) i) / ((n : ℝ) - 1))

/-- the partial correlation of `PartialCorrelationTest` (common.py:121-129); `none` if the denominator is zero.  (For
correlations in `[-1, 1]`, which are the only ones `CalculatePearsonCorrelations` stores, the root is of a nonnegative
number; Python would continue with a complex number otherwise.) -/
noncomputable def tripleParCorr (xy xz yz : ℝ) : Option ℝ :=
  if √((1 - xz ^ 2) * (1 - yz ^ 2)) = 0 then none else some ((xy - xz * yz) / √((1 - xz ^ 2) * (1 - yz ^ 2)))

/-- the partial correlation of `ExtendedPartialCorrelationTestMatrix` (common.py:208-228); `none` if the determinant is
zero -/
noncomputable def matrixParCorr {k : ℕ} (C : Matrix (Fin (k + 2)) (Fin (k + 2)) ℝ) : Option ℝ :=
  if C.det = 0 then none
  else
    let K := C⁻¹
    let D := Matrix.diagonal (fun i => √(K i i))
    let P := D * K * D
    some (-1 * P 0 1 / √(P 0 0 * P 1 1))

/-- `0.5 * math.log((1 + r) / (1 - r))` (common.py:51, 136, 234).  Python raises `ZeroDivisionError` for `r = 1` and
`ValueError` if the argument of the logarithm is not positive.  (In the matrix test `r` is a tensor, for which the division
by zero gives infinity instead.) -/
noncomputable def fisherZ (r : ℝ) : Except PyErr ℝ :=
  if 1 - r = 0 then .error .zeroDivision
  else if (1 + r) / (1 - r) ≤ 0 then .error .valueError
  else .ok (0.5 * Real.log ((1 + r) / (1 - r)))

/-- The decision of the three tests (common.py:47-60, 131-145, 230-243): is the p value above the threshold?  `Φ` is
`stats.norm.cdf`; `controls` is 0 for `CorrelationCoefficientTest`.  `math.sqrt` of a negative number raises
`ValueError`. -/
noncomputable def independent (Φ : ℝ → ℝ) (threshold : ℝ) (samples controls : ℕ) (r : ℝ) : Except PyErr Bool :=
  match fisherZ r with
  | .error e => .error e
  | .ok z =>
    if (samples : ℝ) - controls - 3 < 0 then .error .valueError
    else .ok (decide (threshold < 2 * (1 - Φ (|z| * √((samples : ℝ) - controls - 3)))))

/-- the numerical part of `ExtendedPartialCorrelationTestMatrix.process` (common.py:205-243) on the columns of the nodes it is
given: `ok none` is the early return for a singular covariance matrix -/
noncomputable def matrixDecision (Φ : ℝ → ℝ) (threshold : ℝ) {k : ℕ} (cols : Fin (k + 2) → Fin n → ℝ) :
    Except PyErr (Option Bool) :=
  match matrixParCorr (torchCov cols) with
  | none => .ok none
  | some r =>
    match independent Φ threshold n k r with
    | .error e => .error e
    | .ok b => .ok (some b)

/-- the numerical part of one iteration of `PartialCorrelationTest.process` (common.py:121-145), from the three correlations
and the number of samples: `ok none` is the early return for a zero denominator -/
noncomputable def tripleDecision (Φ : ℝ → ℝ) (threshold : ℝ) (samples : ℕ) (xy xz yz : ℝ) : Except PyErr (Option Bool) :=
  match tripleParCorr xy xz yz with
  | none => .ok none
  | some r =>
    match independent Φ threshold samples 1 r with
    | .error e => .error e
    | .ok b => .ok (some b)

end Stats
end Verif
