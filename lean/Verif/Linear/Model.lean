import Verif.Stats.Model
import Verif.CI.Model

/-!
# The numerical answers on given data

The tests of causy/causal_discovery/constraint/independence_tests/common.py as functions of the data columns: the parameter
`Tests` of `Verif/CI` for the data `col`, in exact arithmetic.  `Verif/Stats` has the formulas of the three tests that `PC`
uses; the regression test is modelled here.

Parameters: `Φ` is `scipy.stats.norm.cdf`, `Q p dof` is `scipy.stats.t.ppf(p, dof)` for positive `dof`, `solve Z x` is
`torch.linalg.lstsq(Z.T, x).solution`.  NaN is `none`.
-/

namespace Verif
namespace Linear
variable {ι : Type} {n : ℕ}

/-- a solver of least squares problems: columns and right hand side to coefficients -/
abbrev Solver (n : ℕ) := (k : ℕ) → (Fin k → Fin n → ℝ) → (Fin n → ℝ) → Fin k → ℝ

/-- `x - torch.matmul(model_x, z)` (common.py:297-298) -/
def rawResidual {k : ℕ} (β : Fin k → ℝ) (Z : Fin k → Fin n → ℝ) (x : Fin n → ℝ) : Fin n → ℝ :=
  fun i => x i - ∑ s, β s * Z s i

/-- `partial_correlation_regression` (common.py:282-303); `none` is the NaN of `0 / 0`.  There is no intercept and no
centring. -/
noncomputable def regParCorr (solve : Solver n) {k : ℕ} (x y : Fin n → ℝ) (Z : Fin k → Fin n → ℝ) : Option ℝ :=
  let rx := rawResidual (solve k Z x) Z x
  let ry := rawResidual (solve k Z y) Z y
  if √(∑ i, rx i * rx i) * √(∑ i, ry i * ry i) = 0 then none
  else some ((∑ i, rx i * ry i) / (√(∑ i, rx i * rx i) * √(∑ i, ry i * ry i)))

/-- `get_t_and_critical_t` (causy/math_utils.py:17-25) and the comparison `abs(t) < critical_t` (common.py:342).
`abs(round(r, 4)) == 1` holds for `0.99995 ≤ |r| ≤ 1.00005` and the answer is then `1 < 0`.  `math.sqrt` of a negative number
raises `ValueError`.  With zero degrees of freedom the critical value is NaN; with a NaN correlation the statistic is NaN. -/
noncomputable def tIndependent (Q : ℝ → ℕ → ℝ) (threshold : ℝ) (samples controls : ℕ) : Option ℝ → Except PyErr Bool
  | none => .ok false
  | some r =>
    if 0.99995 ≤ |r| ∧ |r| ≤ 1.00005 then .ok false
    else if ((samples : ℝ) - 2 - controls) / (1 - r ^ 2) < 0 then .error .valueError
    else if samples = 2 + controls then .ok false
    else .ok (decide (|r * √(((samples : ℝ) - 2 - controls) / (1 - r ^ 2))| < Q (1 - threshold / 2) (samples - 2 - controls)))

/-- the decision of the Fisher z tests if the correlation is NaN: all comparisons are false, but the root is taken -/
def nanDecision (samples controls : ℕ) : Except PyErr Bool :=
  if samples < controls + 3 then .error .valueError else .ok false

/-- `CorrelationCoefficientTest.process` (common.py:46-60) on a stored correlation -/
noncomputable def marginalAnswer (Φ : ℝ → ℝ) (threshold : ℝ) (samples : ℕ) : Option ℝ → Except PyErr Bool
  | none => nanDecision samples 0
  | some r => Stats.independent Φ threshold samples 0 r

/-- one iteration of `PartialCorrelationTest.process` (common.py:121-145) on three stored correlations -/
noncomputable def tripleAnswer (Φ : ℝ → ℝ) (threshold : ℝ) (samples controls : ℕ) (xy xz yz : Option ℝ) :
    Except PyErr (Option Bool) :=
  match xz, yz with
  | some b, some d =>
    match xy with
    | some a =>
      match Stats.tripleParCorr a b d with
      | none => .ok none
      | some r =>
        match Stats.independent Φ threshold samples controls r with
        | .error e => .error e
        | .ok ans => .ok (some ans)
    | none =>
      if √((1 - b ^ 2) * (1 - d ^ 2)) = 0 then .ok none
      else match nanDecision samples controls with
        | .error e => .error e
        | .ok ans => .ok (some ans)
  | _, _ =>
    match nanDecision samples controls with
    | .error e => .error e
    | .ok ans => .ok (some ans)

/-- the numerical part of `ExtendedPartialCorrelationTestMatrix.process` (common.py:205-243) for a combination of nodes; the
process function raises for fewer than two nodes before it gets here -/
noncomputable def matrixAnswer (Φ : ℝ → ℝ) (threshold : ℝ) (col : ι → Fin n → ℝ) : List ι → Except PyErr (Option Bool)
  | x :: y :: S => Stats.matrixDecision Φ threshold (k := S.length) (fun j => col ((x :: y :: S).get j))
  | _ => .error .indexError

/-- the numerical part of `ExtendedPartialCorrelationTestLinearRegression.process` (common.py:324-342); `torch.stack([])`
raises `RuntimeError` -/
noncomputable def regressionAnswer (Q : ℝ → ℕ → ℝ) (solve : Solver n) (threshold : ℝ) (col : ι → Fin n → ℝ) :
    List ι → Except PyErr Bool
  | _ :: _ :: [] => .error .runtimeError
  | x :: y :: S => tIndependent Q threshold n S.length (regParCorr solve (col x) (col y) (fun j => col (S.get j)))
  | _ => .error .indexError

/-- all tests on the data `col` with the configured threshold -/
noncomputable def dataTests (Φ : ℝ → ℝ) (Q : ℝ → ℕ → ℝ) (solve : Solver n) (threshold : ℝ) (col : ι → Fin n → ℝ) :
    Tests ι (Option ℝ) where
  pearson x y := Stats.pearson (col x) (col y)
  t0 _ _ r := marginalAnswer Φ threshold n r
  t1 controls _ _ _ a b d := tripleAnswer Φ threshold n controls a b d
  tm := matrixAnswer Φ threshold col
  reg := regressionAnswer Q solve threshold col

end Linear
end Verif
