import Mathlib.Analysis.Matrix.Normed
import Mathlib.Topology.Instances.Matrix
import Mathlib.LinearAlgebra.Matrix.NonsingularInverse
import Mathlib.LinearAlgebra.Matrix.ToLinearEquiv
import Mathlib.Tactic.NoncommRing
import Mathlib.Tactic.Linarith
import Mathlib.Tactic.Positivity
import Verif.Sample.InitialSpec

/-!
# The equation `S = A S Aᵀ + Q` for matrices whose powers tend to zero
-/

namespace Verif
namespace Sample
open Matrix Kronecker Filter Topology
variable {N : Type} [Fintype N] [DecidableEq N]

/-- the Kronecker square acts on flattened matrices as `S ↦ A S Aᵀ` -/
theorem kron_mulVec (A S : Matrix N N ℝ) (p : N × N) :
    ((A ⊗ₖ A) *ᵥ (fun r => S r.1 r.2)) p = (A * S * Aᵀ) p.1 p.2 := by
  obtain ⟨p, q⟩ := p
  simp only [mulVec, dotProduct, Fintype.sum_prod_type, kronecker_apply, mul_apply, transpose_apply, Finset.sum_mul]
  rw [Finset.sum_comm]
  exact Finset.sum_congr rfl (fun i _ => Finset.sum_congr rfl (fun j _ => by ring))

theorem one_sub_kron_mulVec (A S : Matrix N N ℝ) (p : N × N) :
    ((1 - A ⊗ₖ A) *ᵥ (fun r => S r.1 r.2)) p = (S - A * S * Aᵀ) p.1 p.2 := by
  rw [sub_mulVec, Pi.sub_apply, kron_mulVec, one_mulVec, Matrix.sub_apply]

/-- the equation, iterated -/
theorem iterate {A S Q : Matrix N N ℝ} (h : S = A * S * Aᵀ + Q) (k : ℕ) :
    S = A ^ k * S * (A ^ k)ᵀ + ∑ j ∈ Finset.range k, A ^ j * Q * (A ^ j)ᵀ := by
  induction k with
  | zero => simp
  | succ k ih =>
    rw [Finset.sum_range_succ]
    have h1 : A ^ k * S * (A ^ k)ᵀ = A ^ (k + 1) * S * (A ^ (k + 1))ᵀ + A ^ k * Q * (A ^ k)ᵀ := by
      conv_lhs => rw [h]
      rw [pow_succ, transpose_mul]
      noncomm_ring
    rw [h1] at ih
    rw [← add_assoc, add_right_comm]
    exact ih

theorem tendsto_sandwich {A : Matrix N N ℝ} (hA : Tendsto (fun k : ℕ => A ^ k) atTop (𝓝 0)) (S : Matrix N N ℝ) :
    Tendsto (fun k : ℕ => A ^ k * S * (A ^ k)ᵀ) atTop (𝓝 0) := by
  have h1 : Tendsto (fun k : ℕ => A ^ k * S) atTop (𝓝 (0 * S)) := hA.mul_const S
  have h2 : Tendsto (fun k : ℕ => (A ^ k)ᵀ) atTop (𝓝 (0ᵀ)) :=
    (continuous_id.matrix_transpose.tendsto (0 : Matrix N N ℝ)).comp hA
  simpa using h1.mul h2

theorem solution_unique {A S T Q : Matrix N N ℝ} (hA : Tendsto (fun k : ℕ => A ^ k) atTop (𝓝 0)) (hS : S = A * S * Aᵀ + Q)
    (hT : T = A * T * Aᵀ + Q) : S = T := by
  have h : S - T = A * (S - T) * Aᵀ + 0 := by
    conv_lhs => rw [hS, hT]
    noncomm_ring
  have h1 : (fun k : ℕ => A ^ k * (S - T) * (A ^ k)ᵀ) = fun _ => S - T := by
    funext k
    have := iterate h k
    simp only [mul_zero, zero_mul, Finset.sum_const_zero, add_zero] at this
    exact this.symm
  have h2 := tendsto_sandwich hA (S - T)
  rw [h1] at h2
  exact sub_eq_zero.1 (tendsto_nhds_unique tendsto_const_nhds h2)

/-- a pseudoinverse of an invertible matrix is the inverse -/
theorem IsPinv.mul_eq_one {M P : Matrix N N ℝ} (h : IsPinv M P) (hM : IsUnit M.det) : M * P = 1 := by
  have := congrArg (· * M⁻¹) h.mpm
  simpa [Matrix.mul_assoc, Matrix.mul_nonsing_inv _ hM] using this

theorem isUnit_one_sub_kron {A : Matrix N N ℝ} (hA : Tendsto (fun k : ℕ => A ^ k) atTop (𝓝 0)) :
    IsUnit (1 - A ⊗ₖ A).det := by
  rw [isUnit_iff_ne_zero]
  intro h
  obtain ⟨v, hv, h0⟩ := Matrix.exists_mulVec_eq_zero_iff.2 h
  apply hv
  have h1 : (Matrix.of fun p q => v (p, q)) = A * (Matrix.of fun p q => v (p, q)) * Aᵀ + 0 := by
    ext p q
    have h2 := one_sub_kron_mulVec A (Matrix.of fun p q => v (p, q)) (p, q)
    have h3 : (fun r : N × N => (Matrix.of fun p q => v (p, q)) r.1 r.2) = v := by funext r; rfl
    rw [h3, h0] at h2
    simp only [Pi.zero_apply, Matrix.sub_apply] at h2
    rw [add_zero]
    linarith
  have h2 := solution_unique (T := 0) hA h1 (by simp)
  funext p
  exact congrFun (congrFun h2 p.1) p.2

/-- the matrix computed with the pseudoinverse solves the equation -/
theorem pinv_solves {A Q : Matrix N N ℝ} {P : Matrix (N × N) (N × N) ℝ} (hA : Tendsto (fun k : ℕ => A ^ k) atTop (𝓝 0))
    (hP : IsPinv (1 - A ⊗ₖ A) P) :
    let S : Matrix N N ℝ := .of fun p q => (P *ᵥ (fun r => Q r.1 r.2)) (p, q)
    S = A * S * Aᵀ + Q := by
  intro S
  ext p q
  have h1 := one_sub_kron_mulVec A S (p, q)
  have h2 : (fun r : N × N => S r.1 r.2) = P *ᵥ (fun r => Q r.1 r.2) := by funext r; rfl
  rw [h2, mulVec_mulVec, hP.mul_eq_one (isUnit_one_sub_kron hA), one_mulVec] at h1
  simp only [Matrix.sub_apply] at h1
  rw [Matrix.add_apply]
  linarith

/-- the diagonal of `B Q Bᵀ` for a diagonal `Q` without negative entries -/
theorem diag_nonneg {Q : Matrix N N ℝ} (hQ : ∀ p q, p ≠ q → Q p q = 0) (hQ0 : ∀ p, 0 ≤ Q p p) (B : Matrix N N ℝ) (p : N) :
    0 ≤ (B * Q * Bᵀ) p p := by
  simp only [mul_apply, transpose_apply]
  refine Finset.sum_nonneg (fun q _ => ?_)
  rw [Finset.sum_eq_single q (fun r _ hr => by rw [hQ r q hr, mul_zero]) (by simp)]
  nlinarith [mul_nonneg (hQ0 q) (mul_self_nonneg (B p q))]

/-- the diagonal of the solution is at least that of `Q` -/
theorem le_solution {A S Q : Matrix N N ℝ} (hA : Tendsto (fun k : ℕ => A ^ k) atTop (𝓝 0)) (hS : S = A * S * Aᵀ + Q)
    (hQ : ∀ p q, p ≠ q → Q p q = 0) (hQ0 : ∀ p, 0 ≤ Q p p) (p : N) : Q p p ≤ S p p := by
  have h1 : Tendsto (fun k : ℕ => (A ^ k * S * (A ^ k)ᵀ) p p) atTop (𝓝 0) := by
    have := (((continuous_apply p).comp (continuous_apply p)).tendsto (0 : Matrix N N ℝ)).comp (tendsto_sandwich hA S)
    exact this
  have h2 : ∀ k : ℕ, 1 ≤ k → (A ^ k * S * (A ^ k)ᵀ) p p ≤ S p p - Q p p := by
    intro k hk
    have h3 := congrFun (congrFun (iterate hS k) p) p
    rw [Matrix.add_apply, Matrix.sum_apply] at h3
    have h4 : Q p p ≤ ∑ j ∈ Finset.range k, (A ^ j * Q * (A ^ j)ᵀ) p p := by
      have h5 := Finset.single_le_sum (f := fun j => (A ^ j * Q * (A ^ j)ᵀ) p p) (s := Finset.range k)
        (fun j _ => diag_nonneg hQ hQ0 _ p) (Finset.mem_range.2 (Nat.lt_of_lt_of_le Nat.zero_lt_one hk))
      simpa using h5
    linarith
  have h3 : (0 : ℝ) ≤ S p p - Q p p :=
    le_of_tendsto h1 (Filter.eventually_atTop.2 ⟨1, fun k hk => h2 k hk⟩)
  linarith

/-- if `D ↦ A D Aᵀ` keeps diagonal matrices diagonal, the solution is diagonal -/
theorem solution_diagonal {A S Q : Matrix N N ℝ} (hA : Tendsto (fun k : ℕ => A ^ k) atTop (𝓝 0)) (hS : S = A * S * Aᵀ + Q)
    (hQ : ∀ p q, p ≠ q → Q p q = 0)
    (hD : ∀ D : Matrix N N ℝ, (∀ p q, p ≠ q → D p q = 0) → ∀ p q, p ≠ q → (A * D * Aᵀ) p q = 0) {p q : N} (hpq : p ≠ q) :
    S p q = 0 := by
  have h0 : ∀ j : ℕ, ∀ p q, p ≠ q → (A ^ j * Q * (A ^ j)ᵀ) p q = 0 := by
    intro j
    induction j with
    | zero => intro p q h; simpa using hQ p q h
    | succ j ih =>
      have := hD _ ih
      rw [pow_succ', transpose_mul]
      simpa [Matrix.mul_assoc] using this
  have h1 : Tendsto (fun k : ℕ => (A ^ k * S * (A ^ k)ᵀ) p q) atTop (𝓝 0) := by
    have := (((continuous_apply q).comp (continuous_apply p)).tendsto (0 : Matrix N N ℝ)).comp (tendsto_sandwich hA S)
    exact this
  have h2 : ∀ k : ℕ, (A ^ k * S * (A ^ k)ᵀ) p q = S p q := by
    intro k
    have h3 := congrFun (congrFun (iterate hS k) p) q
    rw [Matrix.add_apply, Matrix.sum_apply, Finset.sum_eq_zero (fun j _ => h0 j p q hpq), add_zero] at h3
    exact h3.symm
  simp only [h2] at h1
  exact tendsto_nhds_unique tendsto_const_nhds h1

end Sample
end Verif
