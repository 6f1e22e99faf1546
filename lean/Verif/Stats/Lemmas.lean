import Verif.Stats.Model
import Mathlib.Tactic.Ring
import Mathlib.Tactic.FieldSimp
import Mathlib.Tactic.Linarith
import Mathlib.Tactic.Positivity
import Mathlib.Algebra.Order.BigOperators.Ring.Finset
import Mathlib.Analysis.Matrix.Order

/-!
# Helper lemmas: correlations and covariance matrices
-/

namespace Verif
namespace Stats
variable {n : ℕ}

/-- sum of products of deviations -/
noncomputable def gram (x y : Fin n → ℝ) : ℝ := ∑ i, dev x i * dev y i

theorem gram_comm (x y : Fin n → ℝ) : gram x y = gram y x :=
  Finset.sum_congr rfl (fun _ _ => mul_comm _ _)

theorem gram_self_nonneg (x : Fin n → ℝ) : 0 ≤ gram x x :=
  Finset.sum_nonneg (fun _ _ => mul_self_nonneg _)

theorem gram_sq_le (x y : Fin n → ℝ) : gram x y ^ 2 ≤ gram x x * gram y y := by
  have := Finset.sum_mul_sq_le_sq_mul_sq Finset.univ (dev x) (dev y)
  simpa [gram, pow_two] using this

theorem gram_self_eq_zero {x : Fin n → ℝ} : gram x x = 0 ↔ ∀ i, dev x i = 0 := by
  unfold gram
  rw [Finset.sum_eq_zero_iff_of_nonneg (fun i _ => mul_self_nonneg _)]
  simp

/-- a column whose values are not all equal -/
theorem gram_self_pos {x : Fin n → ℝ} {i j : Fin n} (h : x i ≠ x j) : 0 < gram x x := by
  refine lt_of_le_of_ne (gram_self_nonneg x) (fun h0 => h ?_)
  have := gram_self_eq_zero.1 h0.symm
  have hi := this i
  have hj := this j
  unfold dev at hi hj
  linarith

theorem covPop_eq (x y : Fin n → ℝ) : covPop x y = gram x y / n := rfl

theorem stdPop_eq (x : Fin n → ℝ) : stdPop x = √(gram x x / n) := by
  unfold stdPop mean gram
  simp only [pow_two]

theorem std_mul (x y : Fin n → ℝ) : stdPop x * stdPop y = √(gram x x * gram y y) / n := by
  rw [stdPop_eq, stdPop_eq, Real.sqrt_div (gram_self_nonneg x), Real.sqrt_div (gram_self_nonneg y), div_mul_div_comm,
    Real.mul_self_sqrt (Nat.cast_nonneg n), Real.sqrt_mul (gram_self_nonneg x)]

theorem pearsonRaw_eq {x y : Fin n → ℝ} (hx : 0 < gram x x) (hy : 0 < gram y y) :
    pearsonRaw x y = some (gram x y / √(gram x x * gram y y)) := by
  have hn : (n : ℝ) ≠ 0 := by
    intro h
    have : n = 0 := by exact_mod_cast h
    subst this
    simp [gram] at hx
  have hs : √(gram x x * gram y y) ≠ 0 := (Real.sqrt_pos.2 (mul_pos hx hy)).ne'
  unfold pearsonRaw
  rw [std_mul, covPop_eq, if_neg (div_ne_zero hs hn)]
  congr 1
  field_simp

theorem abs_ratio_le (x y : Fin n → ℝ) : |gram x y / √(gram x x * gram y y)| ≤ 1 := by
  rw [abs_div, abs_of_nonneg (Real.sqrt_nonneg _)]
  refine div_le_one_of_le₀ ?_ (Real.sqrt_nonneg _)
  exact Real.abs_le_sqrt (gram_sq_le x y)

theorem clamp_id {r : ℝ} (h : |r| ≤ 1) : clamp r = r := by
  obtain ⟨h1, h2⟩ := abs_le.1 h
  unfold clamp
  rw [if_neg (by linarith), if_neg (by linarith)]

theorem pearson_eq {x y : Fin n → ℝ} (hx : 0 < gram x x) (hy : 0 < gram y y) :
    pearson x y = some (gram x y / √(gram x x * gram y y)) := by
  unfold pearson
  rw [pearsonRaw_eq hx hy, Option.map_some, clamp_id (abs_ratio_le x y)]

theorem mean_affine (hn : n ≠ 0) (x : Fin n → ℝ) (a b : ℝ) : mean (fun i => a * x i + b) = a * mean x + b := by
  have : (n : ℝ) ≠ 0 := by exact_mod_cast hn
  unfold mean
  rw [Finset.sum_add_distrib, ← Finset.mul_sum, Finset.sum_const, Finset.card_univ, Fintype.card_fin, nsmul_eq_mul]
  field_simp

theorem dev_affine (x : Fin n → ℝ) (a b : ℝ) (i : Fin n) : dev (fun i => a * x i + b) i = a * dev x i := by
  have hn : n ≠ 0 := by rintro rfl; exact i.elim0
  unfold dev
  rw [mean_affine hn]
  ring

theorem gram_affine (x y : Fin n → ℝ) (a b c d : ℝ) :
    gram (fun i => a * x i + b) (fun i => c * y i + d) = a * c * gram x y := by
  unfold gram
  rw [Finset.mul_sum]
  refine Finset.sum_congr rfl (fun i _ => ?_)
  rw [dev_affine, dev_affine]
  ring

/-! ### covariance matrices -/

theorem torchCov_apply {k : ℕ} (cols : Fin k → Fin n → ℝ) (a b : Fin k) :
    torchCov cols a b = gram (cols a) (cols b) / ((n : ℝ) - 1) := rfl

theorem torchCov_posSemidef {k : ℕ} (cols : Fin k → Fin n → ℝ) (hn : 2 ≤ n) : (torchCov cols).PosSemidef := by
  have h1 : (0 : ℝ) ≤ 1 / ((n : ℝ) - 1) := by
    have : (2 : ℝ) ≤ n := by exact_mod_cast hn
    exact one_div_nonneg.2 (by linarith)
  let A : Matrix (Fin k) (Fin n) ℝ := Matrix.of (fun a i => dev (cols a) i)
  have : torchCov cols = (1 / ((n : ℝ) - 1)) • (A * A.conjTranspose) := by
    ext a b
    simp [torchCov, A, Matrix.mul_apply, div_eq_inv_mul, Finset.mul_sum]
  rw [this]
  exact (Matrix.posSemidef_self_mul_conjTranspose A).smul h1

theorem torchCov_posDef {k : ℕ} {cols : Fin k → Fin n → ℝ} (hn : 2 ≤ n) (hd : (torchCov cols).det ≠ 0) :
    (torchCov cols).PosDef := (torchCov_posSemidef cols hn).posDef_iff_det_ne_zero.2 hd

theorem rescaling {a b k : ℝ} (ha : 0 < a) (hb : 0 < b) :
    -1 * (√a * k * √b) / √(√a * a * √a * (√b * b * √b)) = -k / √(a * b) := by
  obtain ⟨s, hs, rfl⟩ : ∃ s, 0 < s ∧ a = s ^ 2 := ⟨√a, Real.sqrt_pos.2 ha, (Real.sq_sqrt ha.le).symm⟩
  obtain ⟨t, ht, rfl⟩ : ∃ t, 0 < t ∧ b = t ^ 2 := ⟨√b, Real.sqrt_pos.2 hb, (Real.sq_sqrt hb.le).symm⟩
  rw [Real.sqrt_sq hs.le, Real.sqrt_sq ht.le, show s * s ^ 2 * s * (t * t ^ 2 * t) = (s ^ 2 * t ^ 2) ^ 2 by ring,
    Real.sqrt_sq (by positivity), show s ^ 2 * t ^ 2 = (s * t) ^ 2 by ring, Real.sqrt_sq (by positivity)]
  field_simp

/-- the rescaling by the diagonal cancels -/
theorem matrixParCorr_eq {k : ℕ} {C : Matrix (Fin (k + 2)) (Fin (k + 2)) ℝ} (hC : C.PosDef) :
    matrixParCorr C = some (-C⁻¹ 0 1 / √(C⁻¹ 0 0 * C⁻¹ 1 1)) := by
  have hK : C⁻¹.PosDef := hC.inv
  unfold matrixParCorr
  rw [if_neg hC.det_pos.ne']
  simp only [Matrix.mul_diagonal, Matrix.diagonal_mul, Option.some.injEq]
  exact rescaling hK.diag_pos hK.diag_pos

/-- from the inverse of a matrix to a two-dimensional block -/
theorem block_corr {a b c p q r : ℝ} (ha : 0 < a) (hb : 0 < b) (h2 : c * p + b * q = 0)
    (h3 : a * q + c * r = 0) (hp : 0 < p) (hr : 0 < r) :
    -c / √(a * b) = q / √(p * r) := by
  have e1 : b * q = -(c * p) := by linarith
  have e2 : a * q = -(c * r) := by linarith
  have hs : 0 < √(a * b) := Real.sqrt_pos.2 (mul_pos ha hb)
  have ht : 0 < √(p * r) := Real.sqrt_pos.2 (mul_pos hp hr)
  rw [div_eq_div_iff hs.ne' ht.ne']
  -- both sides have the same sign and the same square
  have hsq : (-c * √(p * r)) ^ 2 = (q * √(a * b)) ^ 2 := by
    rw [mul_pow, mul_pow, Real.sq_sqrt (mul_pos hp hr).le, Real.sq_sqrt (mul_pos ha hb).le]
    calc (-c) ^ 2 * (p * r) = (-(c * p)) * (-(c * r)) := by ring
      _ = (b * q) * (a * q) := by rw [e1, e2]
      _ = q ^ 2 * (a * b) := by ring
  rcases le_or_gt 0 q with hq | hq
  · have hc : 0 ≤ -c := by
      by_contra hc
      have : 0 < c := by linarith
      have : 0 < c * p := mul_pos this hp
      have : 0 ≤ b * q := mul_nonneg hb.le hq
      linarith
    exact (pow_left_inj₀ (mul_nonneg hc ht.le) (mul_nonneg hq hs.le) (by norm_num)).1 hsq
  · have hc : 0 ≤ c := by
      by_contra hc
      have : c * p < 0 := mul_neg_of_neg_of_pos (by linarith) hp
      have : b * q < 0 := mul_neg_of_pos_of_neg hb hq
      linarith
    have := (pow_left_inj₀ (mul_nonneg hc ht.le) (mul_nonneg (by linarith : 0 ≤ -q) hs.le) (by norm_num)).1
      (by rw [← neg_sq, ← neg_mul, hsq]; ring : (c * √(p * r)) ^ 2 = (-q * √(a * b)) ^ 2)
    linarith

end Stats
end Verif
