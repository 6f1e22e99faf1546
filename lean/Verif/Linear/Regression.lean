import Mathlib.LinearAlgebra.Matrix.Rank
import Verif.Linear.Lemmas3

/-!
# Lemmas: the regression test
-/

namespace Verif
namespace Linear
open Dag Stats
variable {ι : Type} [DecidableEq ι] {n : ℕ}

/-- solvers exist -/
theorem exists_solves (n : ℕ) : ∃ solve : Solver n, Solves solve := by
  have key : ∀ (k : ℕ) (Z : Fin k → Fin n → ℝ) (x : Fin n → ℝ), ∃ β, LeastSquaresRaw x Z β := by
    intro k Z x
    let A : Matrix (Fin k) (Fin n) ℝ := Matrix.of Z
    have hle : LinearMap.range (A * A.transpose).mulVecLin ≤ LinearMap.range A.mulVecLin := by
      rw [Matrix.mulVecLin_mul]
      exact LinearMap.range_comp_le_range _ _
    have heq := Submodule.eq_of_le_of_finrank_eq hle (by
      have := Matrix.rank_self_mul_transpose A
      exact this)
    obtain ⟨β, hβ⟩ : A.mulVec x ∈ LinearMap.range (A * A.transpose).mulVecLin := by
      rw [heq]
      exact ⟨x, rfl⟩
    refine ⟨β, fun s => ?_⟩
    have := congrFun hβ s
    rw [Matrix.mulVecLin_apply, ← Matrix.mulVec_mulVec] at this
    simp only [Matrix.mulVec, dotProduct, Matrix.transpose_apply] at this
    simp only [sub_mul, Finset.sum_sub_distrib]
    rw [sub_eq_zero]
    simp only [show ∀ i, A s i = Z s i from fun _ => rfl, show ∀ j i, A j i = Z j i from fun _ _ => rfl] at this
    rw [Finset.sum_congr rfl (fun i _ => mul_comm (x i) (Z s i)), ← this]
    refine Finset.sum_congr rfl (fun i _ => ?_)
    rw [mul_comm]
    congr 1
    exact Finset.sum_congr rfl (fun j _ => mul_comm _ _)
  choose f hf using key
  exact ⟨f, hf⟩

theorem MeanZero.centred {x : Fin n → ℝ} (h : MeanZero x) : Stats.centred x = x := by
  funext i
  unfold Stats.centred
  rw [h, zero_div, sub_zero]

theorem residual_raw {k : ℕ} {x : Fin n → ℝ} {Z : Fin k → Fin n → ℝ} (hx : MeanZero x) (hZ : ∀ s, MeanZero (Z s))
    (β : Fin k → ℝ) : Stats.residual x Z β = rawResidual β Z x := by
  funext i
  unfold Stats.residual rawResidual
  simp only [hx.centred, fun s => (hZ s).centred]

theorem leastSquares_raw {k : ℕ} {x : Fin n → ℝ} {Z : Fin k → Fin n → ℝ} (hx : MeanZero x) (hZ : ∀ s, MeanZero (Z s))
    {β : Fin k → ℝ} (h : LeastSquaresRaw x Z β) : LeastSquares x Z β := by
  intro s
  rw [residual_raw hx hZ, (hZ s).centred]
  exact h s

/-- on columns with average zero the correlation is that of the other tests -/
theorem regParCorr_eq {solve : Solver n} (hsol : Solves solve) {col : ι → Fin n → ℝ} {N : List ι}
    (h : NoRelation col N) (hm : ∀ v ∈ N, MeanZero (col v)) {x y : ι} {S : List ι} (hq : Question N x y S) {r : ℝ}
    (hn : 2 ≤ n) (hr : PartialCorr col x y S r) : regParCorr solve (col x) (col y) (fun j => col (S.get j)) = some r := by
  have hx := hm x (hq.2 x (by simp))
  have hy := hm y (hq.2 y (by simp))
  have hS : ∀ s : Fin S.length, MeanZero (col (S.get s)) := fun s => hm _ (hq.2 _ (by simp))
  have b1 := leastSquares_raw hx hS (hsol _ (fun j => col (S.get j)) (col x))
  have b2 := leastSquares_raw hy hS (hsol _ (fun j => col (S.get j)) (col y))
  obtain ⟨r', h1, h2, h3, hu⟩ := partialCorr_unique hn h hq
  have e1 := hu _ ⟨_, _, b1, b2, rfl⟩
  rw [hu r hr, ← e1]
  have hl : NoLinearRelation (colsOf col x y S) := h.list hq.1 hq.2
  obtain ⟨p1, p2, _⟩ := resid_strict hl (solve _ (fun j => col (S.get j)) (col x)) (solve _ (fun j => col (S.get j)) (col y))
  have q1 : Stats.residual (col x) (fun s => col (S.get s)) (solve _ (fun j => col (S.get j)) (col x))
    = rawResidual _ _ _ := residual_raw hx hS _
  have q2 : Stats.residual (col y) (fun s => col (S.get s)) (solve _ (fun j => col (S.get j)) (col y))
    = rawResidual _ _ _ := residual_raw hy hS _
  change 0 < ∑ i, Stats.residual (col x) (fun s => col (S.get s)) _ i * Stats.residual (col x) (fun s => col (S.get s)) _ i at p1
  change 0 < ∑ i, Stats.residual (col y) (fun s => col (S.get s)) _ i * Stats.residual (col y) (fun s => col (S.get s)) _ i at p2
  rw [q1] at p1
  rw [q2] at p2
  unfold regParCorr
  simp only
  rw [if_neg (mul_pos (Real.sqrt_pos.2 p1) (Real.sqrt_pos.2 p2)).ne', q1, q2, cosine, Real.sqrt_mul p1.le]

end Linear
end Verif
