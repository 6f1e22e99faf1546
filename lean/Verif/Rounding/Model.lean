import Verif.Linear.Model

/-!
# The numerical code with rounding errors

The formulas of `Verif/Stats` once more, operation by operation, with the operations of an arbitrary arithmetic in place of the
exact ones.  `torch.float64` and Python floats are real numbers (those that can be represented); the operations round.  Infinity
and NaN do not occur as numbers; where the code can produce them from finite numbers, the definition has a branch.
-/

namespace Verif
namespace Rounding
open Linear

/-- an arithmetic: what the operations of Python, torch and scipy return -/
structure Arith where
  add : ℝ → ℝ → ℝ
  sub : ℝ → ℝ → ℝ
  mul : ℝ → ℝ → ℝ
  div : ℝ → ℝ → ℝ
  /-- `math.sqrt`, `torch.sqrt`, `** 0.5` -/
  sqrt : ℝ → ℝ
  /-- `math.log` -/
  log : ℝ → ℝ
  /-- `scipy.stats.norm.cdf` -/
  cdf : ℝ → ℝ
  /-- the sums inside `torch.mean` and `torch.mm`, in whatever order -/
  sum : {n : ℕ} → (Fin n → ℝ) → ℝ
  /-- `Tensor.std(unbiased=False)` -/
  std : {n : ℕ} → (Fin n → ℝ) → ℝ
  /-- `torch.cov` of the rows -/
  cov : {k n : ℕ} → (Fin k → Fin n → ℝ) → Matrix (Fin k) (Fin k) ℝ
  /-- `torch.det` -/
  det : {k : ℕ} → Matrix (Fin k) (Fin k) ℝ → ℝ
  /-- `torch.inverse` -/
  inv : {k : ℕ} → Matrix (Fin k) (Fin k) ℝ → Matrix (Fin k) (Fin k) ℝ

variable (A : Arith) {n : ℕ}

/-- `x.mean()` -/
noncomputable def mean (x : Fin n → ℝ) : ℝ := A.div (A.sum x) n

/-- `torch.mean((x - x.mean()) * (y - y.mean()))` (common_pipeline_steps/calculation.py:37) -/
noncomputable def covPop (x y : Fin n → ℝ) : ℝ :=
  mean A (fun i => A.mul (A.sub (x i) (mean A x)) (A.sub (y i) (mean A y)))

/-- the stored correlation (calculation.py:37-50).  A quotient of zero by zero is NaN, which passes the comparisons; a quotient
of a nonzero number by zero is infinite and clamped. -/
noncomputable def pearson (x y : Fin n → ℝ) : Option ℝ :=
  let c := covPop A x y
  let s := A.mul (A.std x) (A.std y)
  if s = 0 then if c = 0 then none else if 0 < c then some 1 else some (-1)
  else some (Stats.clamp (A.div c s))

/-- the partial correlation of `PartialCorrelationTest` (independence_tests/common.py:121-129); `none` if the denominator is
zero -/
noncomputable def tripleParCorr (xy xz yz : ℝ) : Option ℝ :=
  let den := A.sqrt (A.mul (A.sub 1 (A.mul xz xz)) (A.sub 1 (A.mul yz yz)))
  if den = 0 then none else some (A.div (A.sub xy (A.mul xz yz)) den)

/-- `0.5 * math.log((1 + r) / (1 - r))` on Python floats (common.py:51, 136) -/
noncomputable def fisherZ (r : ℝ) : Except PyErr ℝ :=
  if A.sub 1 r = 0 then .error .zeroDivision
  else if A.div (A.add 1 r) (A.sub 1 r) ≤ 0 then .error .valueError
  else .ok (A.mul 0.5 (A.log (A.div (A.add 1 r) (A.sub 1 r))))

/-- the p value `2 * (1 - stats.norm.cdf(abs(fisher_z) * math.sqrt(...)))` and the comparison with the threshold (common.py:54-60,
139-145, 237-243) -/
noncomputable def pAbove (threshold : ℝ) (samples controls : ℕ) (z : ℝ) : Except PyErr Bool :=
  if (samples : ℝ) - controls - 3 < 0 then .error .valueError
  else .ok (decide (threshold < A.mul 2 (A.sub 1 (A.cdf (A.mul |z| (A.sqrt ((samples : ℝ) - controls - 3)))))))

/-- the decision of `CorrelationCoefficientTest` and `PartialCorrelationTest` (common.py:51-60, 136-145) -/
noncomputable def independent (threshold : ℝ) (samples controls : ℕ) (r : ℝ) : Except PyErr Bool :=
  match fisherZ A r with
  | .error e => .error e
  | .ok z => pAbove A threshold samples controls z

/-- the decision of `ExtendedPartialCorrelationTestMatrix` (common.py:234-243): here `r` is a tensor, so that a division by zero
gives infinity, and then the p value is zero -/
noncomputable def tensorIndependent (threshold : ℝ) (samples controls : ℕ) (r : ℝ) : Except PyErr Bool :=
  if A.sub 1 r = 0 then
    if A.add 1 r < 0 then .error .valueError
    else if (samples : ℝ) - controls - 3 < 0 then .error .valueError
    else .ok (decide (0 < A.add 1 r ∧ threshold < 0))
  else independent A threshold samples controls r

/-- `torch.mm` -/
noncomputable def mm {k : ℕ} (X Y : Matrix (Fin k) (Fin k) ℝ) : Matrix (Fin k) (Fin k) ℝ :=
  fun i j => A.sum (fun l => A.mul (X i l) (Y l j))

/-- the precision matrix scaled (common.py:216-224) -/
noncomputable def scaled {k : ℕ} (K : Matrix (Fin k) (Fin k) ℝ) : Matrix (Fin k) (Fin k) ℝ :=
  let D : Matrix (Fin k) (Fin k) ℝ := fun i j => A.sqrt (if i = j then K i i else 0)
  mm A (mm A D K) D

/-- the partial correlation of `ExtendedPartialCorrelationTestMatrix` (common.py:226-228) from the inverse covariance matrix;
`none` if it is NaN or infinite: the root of a negative number, or a division by zero -/
noncomputable def matrixParCorr {k : ℕ} (K : Matrix (Fin (k + 2)) (Fin (k + 2)) ℝ) : Option ℝ :=
  let P := scaled A K
  if K 0 0 < 0 ∨ K 1 1 < 0 ∨ A.mul (P 0 0) (P 1 1) < 0 ∨ A.sqrt (A.mul (P 0 0) (P 1 1)) = 0 then none
  else some (A.div (A.mul (-1) (P 0 1)) (A.sqrt (A.mul (P 0 0) (P 1 1))))

/-- `CorrelationCoefficientTest.process` (common.py:46-60) on a stored correlation -/
noncomputable def marginalAnswer (threshold : ℝ) (samples : ℕ) : Option ℝ → Except PyErr Bool
  | none => nanDecision samples 0
  | some r => independent A threshold samples 0 r

/-- one iteration of `PartialCorrelationTest.process` (common.py:121-145) on three stored correlations -/
noncomputable def tripleAnswer (threshold : ℝ) (samples controls : ℕ) (xy xz yz : Option ℝ) : Except PyErr (Option Bool) :=
  match xz, yz with
  | some b, some d =>
    match xy with
    | some a =>
      match tripleParCorr A a b d with
      | none => .ok none
      | some r =>
        match independent A threshold samples controls r with
        | .error e => .error e
        | .ok ans => .ok (some ans)
    | none =>
      if A.sqrt (A.mul (A.sub 1 (A.mul b b)) (A.sub 1 (A.mul d d))) = 0 then .ok none
      else match nanDecision samples controls with
        | .error e => .error e
        | .ok ans => .ok (some ans)
  | _, _ =>
    match nanDecision samples controls with
    | .error e => .error e
    | .ok ans => .ok (some ans)

/-- the numerical part of `ExtendedPartialCorrelationTestMatrix.process` (common.py:205-243) on the columns of the nodes -/
noncomputable def matrixDecision (threshold : ℝ) {k : ℕ} (cols : Fin (k + 2) → Fin n → ℝ) : Except PyErr (Option Bool) :=
  if A.det (A.cov cols) = 0 then .ok none
  else
    match matrixParCorr A (A.inv (A.cov cols)) with
    | none =>
      match nanDecision n k with
      | .error e => .error e
      | .ok ans => .ok (some ans)
    | some r =>
      match tensorIndependent A threshold n k r with
      | .error e => .error e
      | .ok b => .ok (some b)

/-- the same for a combination of nodes -/
noncomputable def matrixAnswer {ι : Type} (threshold : ℝ) (col : ι → Fin n → ℝ) : List ι → Except PyErr (Option Bool)
  | x :: y :: S => matrixDecision A threshold (k := S.length) (fun j => col ((x :: y :: S).get j))
  | _ => .error .indexError

/-- all tests on the data `col` with the configured threshold.  The regression test, which none of the algorithms uses, is a
parameter. -/
noncomputable def tests {ι : Type} (reg : List ι → Except PyErr Bool) (threshold : ℝ) (col : ι → Fin n → ℝ) :
    Tests ι (Option ℝ) where
  pearson x y := pearson A (col x) (col y)
  t0 _ _ r := marginalAnswer A threshold n r
  t1 controls _ _ _ a b d := tripleAnswer A threshold n controls a b d
  tm := matrixAnswer A threshold col
  reg := reg

end Rounding
end Verif
