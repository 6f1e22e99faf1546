import Mathlib.Analysis.Real.Sqrt
import Mathlib.LinearAlgebra.Matrix.Kronecker
import Verif.Sample.Model

/-!
# The initial values of time series (causy/sample_generator.py:254-265, 343-453)

Numbers are real.  The position `l * n + i` of the `n * longest_lag` rows and columns is the pair `(l, i)`, and a position in
a flattened matrix is the pair of its row and its column.  `torch.linalg.pinv` is a parameter.  The square root of a negative
number is nan, here `none`.  Simplifications: no rounding (the code computes in single precision); what
`_initial_distribution_fn` does with its argument is not modelled.
-/

namespace Verif
namespace Sample
open Matrix Kronecker
variable {ι R : Type} [DecidableEq ι]

/-- `_longest_lag` (sample_generator.py:261-263) -/
def longestLag (edges : List (SEdge ι R)) : ℕ := (edges.map (fun e => e.time.natAbs)).foldr max 0

/-- the loop of `__generate_coefficient_matrix` (sample_generator.py:386-389): the entry for block `l`, target `a` and source
`b`; a later edge overwrites an earlier one -/
def coefficients (L : ℕ) : List (SEdge ι R) → (ℕ → ι → ι → R) → Except PyErr (ℕ → ι → ι → R)
  | [], m => .ok m
  | e :: es, m =>
    match pyIndex (List.range L) (e.time * -1 - 1) with
    | .error err => .error err
    | .ok l => coefficients L es (fun l' a b => if l' = l ∧ a = e.dst ∧ b = e.src then e.value else m l' a b)

/-- the positions of rows and columns: block and variable -/
abbrev Idx (L n : ℕ) := Fin L × Fin n

/-- `custom_block_diagonal` (sample_generator.py:343-370): the blocks in the first rows, identities below the diagonal -/
def companion (L : ℕ) (vars : List ι) (m : ℕ → ι → ι → ℝ) : Matrix (Idx L vars.length) (Idx L vars.length) ℝ :=
  .of fun p q =>
    if p.1.val = 0 then m q.1 vars[p.2] vars[q.2]
    else if p.1.val = q.1.val + 1 ∧ p.2 = q.2 then 1
    else 0

/-- the matrix that `vectorize_identity_block` flattens (sample_generator.py:394-406) -/
def noiseBlock (L n : ℕ) : Matrix (Idx L n) (Idx L n) ℝ :=
  .of fun p q => if p.1.val = 0 ∧ q.1.val = 0 ∧ p.2 = q.2 then 1 else 0

/-- the pseudoinverse routine for matrices of the size needed -/
abbrev PinvFn := ∀ L n : ℕ, Matrix (Idx L n × Idx L n) (Idx L n × Idx L n) ℝ → Matrix (Idx L n × Idx L n) (Idx L n × Idx L n) ℝ

/-- `vectorized_covariance_matrix`, reshaped (sample_generator.py:427-439) -/
def covarianceMatrix (pinv : PinvFn) {L n : ℕ} (A : Matrix (Idx L n) (Idx L n) ℝ) : Matrix (Idx L n) (Idx L n) ℝ :=
  .of fun p q => (pinv L n (1 - A ⊗ₖ A) *ᵥ (fun r => noiseBlock L n r.1 r.2)) (p, q)

/-- the arguments `_calculate_initial_values` passes to `_initial_distribution_fn`, one for each variable
(sample_generator.py:408-443).  The constructor raises without edges (261-263); with edges, `longest_lag` is zero only if every
edge has lag zero, and then the loop over the edges raises. -/
noncomputable def initialScales (pinv : PinvFn) (edges : List (SEdge ι ℝ)) (vars : List ι) :
    Except PyErr (Fin vars.length → Option ℝ) :=
  if edges = [] then .error .valueError
  else
    match coefficients (longestLag edges) edges (fun _ _ _ => 0) with
    | .error e => .error e
    | .ok m =>
      if h : 0 < longestLag edges then
        .ok (fun i =>
          let v := covarianceMatrix pinv (companion (longestLag edges) vars m) (⟨0, h⟩, i) (⟨0, h⟩, i)
          if v < 0 then none else some (√v))
      else .error .indexError

end Sample
end Verif
