import Mathlib.Analysis.Matrix.Spectrum
import Mathlib.Algebra.Star.UnitaryStarAlgAut
import Verif.Sample.InitialSpec

/-!
# Pseudoinverses exist
-/

namespace Verif
namespace Sample
open Matrix
variable {N : Type} [Fintype N] [DecidableEq N]

theorem exists_pinv_symmetric (H : Matrix N N ℝ) (hH : H.IsHermitian) :
    ∃ P, H * P * H = H ∧ P * H * P = P ∧ (P * H)ᵀ = P * H ∧ Pᵀ = P := by
  have h := hH.spectral_theorem
  let φ := Unitary.conjStarAlgAut ℝ (Matrix N N ℝ) hH.eigenvectorUnitary
  let D : Matrix N N ℝ := diagonal (RCLike.ofReal ∘ hH.eigenvalues)
  let E : Matrix N N ℝ := diagonal (fun i => (hH.eigenvalues i)⁻¹)
  have hD : H = φ D := h
  have hs : ∀ X : Matrix N N ℝ, (φ X)ᵀ = φ Xᵀ := by
    intro X
    have h1 : star (φ X) = φ (star X) := (map_star φ X).symm
    simpa [star_eq_conjTranspose, conjTranspose_eq_transpose_of_trivial] using h1
  have e1 : D * E * D = D := by
    simp only [D, E, diagonal_mul_diagonal, diagonal_eq_diagonal_iff]
    intro i
    simp only [Function.comp, RCLike.ofReal_real_eq_id, id]
    by_cases h0 : hH.eigenvalues i = 0
    · simp [h0]
    · field_simp
  have e2 : E * D * E = E := by
    simp only [D, E, diagonal_mul_diagonal, diagonal_eq_diagonal_iff]
    intro i
    simp only [Function.comp, RCLike.ofReal_real_eq_id, id]
    by_cases h0 : hH.eigenvalues i = 0
    · simp [h0]
    · field_simp
  refine ⟨φ E, ?_, ?_, ?_, ?_⟩
  · rw [hD, ← map_mul, ← map_mul, e1]
  · rw [hD, ← map_mul, ← map_mul, e2]
  · rw [hD, ← map_mul, hs]
    simp [D, E, diagonal_mul_diagonal]
  · rw [hs]
    simp [E]

theorem exists_pinv (M : Matrix N N ℝ) : ∃ P, IsPinv M P := by
  have hH : (Mᵀ * M).IsHermitian := by
    simpa [conjTranspose_eq_transpose_of_trivial] using isHermitian_conjTranspose_mul_self M
  obtain ⟨Q, h1, h2, h3, h4⟩ := exists_pinv_symmetric _ hH
  have h5 : M * (Q * (Mᵀ * M)) = M := by
    have h6 : (M * (Q * (Mᵀ * M)) - M)ᵀ * (M * (Q * (Mᵀ * M)) - M) = 0 := by
      have e1 : M * (Q * (Mᵀ * M)) - M = M * (Q * (Mᵀ * M) - 1) := by rw [mul_sub, mul_one]
      have e2 : Mᵀ * M * (Q * (Mᵀ * M) - 1) = 0 := by rw [mul_sub, ← mul_assoc, h1, mul_one, sub_self]
      rw [e1, transpose_mul, mul_assoc, ← mul_assoc Mᵀ, e2, mul_zero]
    have h7 := conjTranspose_mul_self_eq_zero.1
      (show (M * (Q * (Mᵀ * M)) - M)ᴴ * (M * (Q * (Mᵀ * M)) - M) = 0 by
        rw [conjTranspose_eq_transpose_of_trivial]; exact h6)
    exact sub_eq_zero.1 h7
  refine ⟨Q * Mᵀ, ?_, ?_, ?_, ?_⟩
  · rw [mul_assoc, mul_assoc]; exact h5
  · calc Q * Mᵀ * M * (Q * Mᵀ) = Q * (Mᵀ * M) * Q * Mᵀ := by simp only [mul_assoc]
      _ = Q * Mᵀ := by rw [h2]
  · rw [transpose_mul, transpose_mul, h4, transpose_transpose, mul_assoc]
  · rw [mul_assoc]; exact h3

/-- a routine as the code assumes it -/
theorem exists_pinvFn : ∃ pinv : PinvFn, ∀ L n M, IsPinv M (pinv L n M) :=
  ⟨fun _ _ M => (exists_pinv M).choose, fun _ _ M => (exists_pinv M).choose_spec⟩

end Sample
end Verif
