import Verif.Stats.Lemmas
import Verif.Stats.Spec

/-!
# Helper lemmas: the entries of an inverse covariance matrix as a correlation of residuals
-/

namespace Verif
namespace Stats
variable {n : ℕ}

theorem centred_eq (x : Fin n → ℝ) : centred x = dev x := rfl

/-- quadratic form of the covariance matrix -/
theorem cov_mulVec {k : ℕ} (cols : Fin k → Fin n → ℝ) (a : Fin k → ℝ) (j : Fin k) :
    (torchCov cols).mulVec a j = (∑ i, dev (cols j) i * ∑ l, a l * dev (cols l) i) / ((n : ℝ) - 1) := by
  unfold Matrix.mulVec dotProduct
  simp only [torchCov, Matrix.of_apply]
  simp only [Finset.mul_sum]
  rw [Finset.sum_comm, Finset.sum_div]
  refine Finset.sum_congr rfl (fun l _ => ?_)
  rw [div_mul_eq_mul_div, Finset.sum_mul]
  congr 1
  exact Finset.sum_congr rfl (fun i _ => by ring)

theorem torchCov_posDef_of {k : ℕ} {cols : Fin k → Fin n → ℝ} (hn : 2 ≤ n) (h : NoLinearRelation cols) :
    (torchCov cols).PosDef := by
  have h1 : (0 : ℝ) < (n : ℝ) - 1 := by
    have : (2 : ℝ) ≤ n := by exact_mod_cast hn
    linarith
  refine Matrix.PosDef.of_dotProduct_mulVec_pos (torchCov_posSemidef cols hn).1 (fun a ha => ?_)
  have hq : star a ⬝ᵥ (torchCov cols).mulVec a = (∑ i, (∑ l, a l * dev (cols l) i) ^ 2) / ((n : ℝ) - 1) := by
    unfold dotProduct
    simp only [cov_mulVec, Pi.star_apply, star_trivial, pow_two]
    simp only [← mul_div_assoc]
    rw [← Finset.sum_div]
    congr 1
    simp only [Finset.mul_sum, Finset.sum_mul]
    rw [Finset.sum_comm]
    refine Finset.sum_congr rfl (fun i _ => ?_)
    rw [Finset.sum_comm]
    refine Finset.sum_congr rfl (fun l _ => Finset.sum_congr rfl (fun m _ => by ring))
  rw [hq]
  refine div_pos ?_ h1
  refine lt_of_le_of_ne (Finset.sum_nonneg (fun i _ => sq_nonneg _)) (fun h0 => ha (h a (fun i => ?_)))
  have := (Finset.sum_eq_zero_iff_of_nonneg (fun i _ => sq_nonneg _)).1 h0.symm i (Finset.mem_univ _)
  exact pow_eq_zero_iff (two_ne_zero) |>.1 this

/-- conversely a nonsingular covariance matrix excludes linear relations -/
theorem noRelation_of_det {k : ℕ} {cols : Fin k → Fin n → ℝ} (hd : (torchCov cols).det ≠ 0) :
    NoLinearRelation cols := by
  intro a ha
  by_contra h
  apply hd
  refine Matrix.exists_mulVec_eq_zero_iff.1 ⟨a, h, ?_⟩
  funext j
  rw [cov_mulVec]
  have : ∀ i, ∑ l, a l * dev (cols l) i = 0 := ha
  simp [this]

/-- the vector of coefficients of a residual -/
def coeffX {k : ℕ} (β : Fin k → ℝ) : Fin (k + 2) → ℝ := Fin.cons 1 (Fin.cons 0 (fun s => -β s))
def coeffY {k : ℕ} (γ : Fin k → ℝ) : Fin (k + 2) → ℝ := Fin.cons 0 (Fin.cons 1 (fun s => -γ s))

theorem sum_two {k : ℕ} (f : Fin (k + 2) → ℝ) : ∑ j, f j = f 0 + (f 1 + ∑ s : Fin k, f s.succ.succ) := by
  rw [Fin.sum_univ_succ, Fin.sum_univ_succ]
  rfl

theorem resid_x {k : ℕ} (cols : Fin (k + 2) → Fin n → ℝ) (β : Fin k → ℝ) (i : Fin n) :
    ∑ l, coeffX β l * dev (cols l) i = residual (cols 0) (fun s => cols s.succ.succ) β i := by
  rw [sum_two]
  show 1 * dev (cols 0) i + (0 * dev (cols 1) i + ∑ s : Fin k, -β s * dev (cols s.succ.succ) i) = _
  simp [residual, centred_eq, sub_eq_add_neg]

theorem resid_y {k : ℕ} (cols : Fin (k + 2) → Fin n → ℝ) (γ : Fin k → ℝ) (i : Fin n) :
    ∑ l, coeffY γ l * dev (cols l) i = residual (cols 1) (fun s => cols s.succ.succ) γ i := by
  rw [sum_two]
  show 0 * dev (cols 0) i + (1 * dev (cols 1) i + ∑ s : Fin k, -γ s * dev (cols s.succ.succ) i) = _
  simp [residual, centred_eq, sub_eq_add_neg]

/-- a least squares residual `u` does not see the predictable part of another residual -/
theorem resid_mul {k : ℕ} {x y : Fin n → ℝ} {S : Fin k → Fin n → ℝ} {β γ : Fin k → ℝ} (h : LeastSquares x S β) :
    ∑ i, dev y i * residual x S β i = ∑ i, residual y S γ i * residual x S β i := by
  have : ∀ i, residual y S γ i * residual x S β i
      = dev y i * residual x S β i - ∑ s, γ s * (residual x S β i * centred (S s) i) := by
    intro i
    rw [show residual y S γ i = dev y i - ∑ s, γ s * centred (S s) i from rfl, sub_mul, Finset.sum_mul]
    congr 1
    exact Finset.sum_congr rfl (fun s _ => by ring)
  simp only [this]
  have hz : ∑ i, ∑ s, γ s * (residual x S β i * centred (S s) i) = 0 := by
    rw [Finset.sum_comm]
    simp only [← Finset.mul_sum]
    exact Finset.sum_eq_zero (fun s _ => by rw [h s, mul_zero])
  rw [Finset.sum_sub_distrib, hz, sub_zero]

theorem residual_corr {k : ℕ} {cols : Fin (k + 2) → Fin n → ℝ} (hn : 2 ≤ n) (hC : (torchCov cols).PosDef)
    {β γ : Fin k → ℝ} (hβ : LeastSquares (cols 0) (fun s => cols s.succ.succ) β)
    (hγ : LeastSquares (cols 1) (fun s => cols s.succ.succ) γ) :
    matrixParCorr (torchCov cols) = some (cosine (residual (cols 0) (fun s => cols s.succ.succ) β)
      (residual (cols 1) (fun s => cols s.succ.succ) γ)) := by
  have h1 : (0 : ℝ) < (n : ℝ) - 1 := by
    have : (2 : ℝ) ≤ n := by exact_mod_cast hn
    linarith
  set S : Fin k → Fin n → ℝ := fun s => cols s.succ.succ with hS
  set u := residual (cols 0) S β with hu
  set v := residual (cols 1) S γ with hv
  set C := torchCov cols with hCdef
  set c := (n : ℝ) - 1 with hc
  -- the products `C a` and `C b`
  have ca : ∀ j, C.mulVec (coeffX β) j = (∑ i, dev (cols j) i * u i) / c := by
    intro j
    rw [hCdef, cov_mulVec]
    simp only [resid_x]
    rfl
  have cb : ∀ j, C.mulVec (coeffY γ) j = (∑ i, dev (cols j) i * v i) / c := by
    intro j
    rw [hCdef, cov_mulVec]
    simp only [resid_y]
    rfl
  have ca0 : C.mulVec (coeffX β) 0 = (∑ i, u i * u i) / c := by
    rw [ca, resid_mul (γ := β) hβ]
  have ca1 : C.mulVec (coeffX β) 1 = (∑ i, u i * v i) / c := by
    rw [ca, resid_mul (γ := γ) hβ]
    congr 1
    exact Finset.sum_congr rfl (fun i _ => mul_comm _ _)
  have cas : ∀ s : Fin k, C.mulVec (coeffX β) s.succ.succ = 0 := by
    intro s
    rw [ca, show ∑ i, dev (cols s.succ.succ) i * u i = 0 from by
      rw [← hβ s]; exact Finset.sum_congr rfl (fun i _ => mul_comm _ _), zero_div]
  have cb0 : C.mulVec (coeffY γ) 0 = (∑ i, u i * v i) / c := by
    rw [cb, resid_mul (γ := β) hγ]
  have cb1 : C.mulVec (coeffY γ) 1 = (∑ i, v i * v i) / c := by
    rw [cb, resid_mul (γ := γ) hγ]
  have cbs : ∀ s : Fin k, C.mulVec (coeffY γ) s.succ.succ = 0 := by
    intro s
    rw [cb, show ∑ i, dev (cols s.succ.succ) i * v i = 0 from by
      rw [← hγ s]; exact Finset.sum_congr rfl (fun i _ => mul_comm _ _), zero_div]
  -- multiplying by the inverse gives back the vectors
  have hunit : IsUnit C.det := hC.det_pos.ne'.isUnit
  have ka : C⁻¹.mulVec (C.mulVec (coeffX β)) = coeffX β := by
    rw [Matrix.mulVec_mulVec, Matrix.nonsing_inv_mul C hunit, Matrix.one_mulVec]
  have kb : C⁻¹.mulVec (C.mulVec (coeffY γ)) = coeffY γ := by
    rw [Matrix.mulVec_mulVec, Matrix.nonsing_inv_mul C hunit, Matrix.one_mulVec]
  have ex : ∀ j, C⁻¹ j 0 * ((∑ i, u i * u i) / c) + C⁻¹ j 1 * ((∑ i, u i * v i) / c) = coeffX β j := by
    intro j
    conv_rhs => rw [← ka]
    unfold Matrix.mulVec dotProduct
    rw [sum_two]
    have e0 := ca0
    have e1 := ca1
    have es := cas
    unfold Matrix.mulVec dotProduct at e0 e1 es
    simp only [e0, e1, es, mul_zero, Finset.sum_const_zero, add_zero]
  have ey : ∀ j, C⁻¹ j 0 * ((∑ i, u i * v i) / c) + C⁻¹ j 1 * ((∑ i, v i * v i) / c) = coeffY γ j := by
    intro j
    conv_rhs => rw [← kb]
    unfold Matrix.mulVec dotProduct
    rw [sum_two]
    have e0 := cb0
    have e1 := cb1
    have es := cbs
    unfold Matrix.mulVec dotProduct at e0 e1 es
    simp only [e0, e1, es, mul_zero, Finset.sum_const_zero, add_zero]
  have hK : C⁻¹.PosDef := hC.inv
  have hsym : C⁻¹ 1 0 = C⁻¹ 0 1 := by
    have := hK.1.apply 0 1
    simpa using this
  have hp : 0 < (∑ i, u i * u i) / c := by
    have hne : coeffX β ≠ 0 := fun h => by
      have := congrFun h 0
      simp [coeffX] at this
    have := hC.dotProduct_mulVec_pos hne
    unfold dotProduct at this
    rw [sum_two] at this
    simp only [ca0, ca1, cas, mul_zero, Finset.sum_const_zero, add_zero, Pi.star_apply, star_trivial] at this
    have e0 : coeffX β 0 = 1 := rfl
    have e1 : coeffX β 1 = 0 := rfl
    rw [e0, e1] at this
    simpa using this
  have hr : 0 < (∑ i, v i * v i) / c := by
    have hne : coeffY γ ≠ 0 := fun h => by
      have := congrFun h 1
      rw [show coeffY γ 1 = 1 from rfl] at this
      simp at this
    have := hC.dotProduct_mulVec_pos hne
    unfold dotProduct at this
    rw [sum_two] at this
    simp only [cb0, cb1, cbs, mul_zero, Finset.sum_const_zero, add_zero, Pi.star_apply, star_trivial] at this
    have e0 : coeffY γ 0 = 0 := rfl
    have e1 : coeffY γ 1 = 1 := rfl
    rw [e0, e1] at this
    simpa using this
  rw [matrixParCorr_eq hC]
  have x1 := ex 1
  have y0 := ey 0
  rw [show coeffX β 1 = 0 from rfl, hsym] at x1
  rw [show coeffY γ 0 = 0 from rfl] at y0
  rw [block_corr (hK.diag_pos (i := 0)) (hK.diag_pos (i := 1)) x1 y0 hp hr]
  unfold cosine
  congr 1
  rw [div_mul_div_comm, Real.sqrt_div' _ (mul_self_nonneg c), Real.sqrt_mul_self h1.le]
  rw [div_div_div_cancel_right₀ h1.ne']

/-- without a linear relation the residuals are linearly independent: strict Cauchy-Schwarz -/
theorem resid_strict {k : ℕ} {cols : Fin (k + 2) → Fin n → ℝ} (h : NoLinearRelation cols) (β γ : Fin k → ℝ) :
    0 < ∑ i, residual (cols 0) (fun s => cols s.succ.succ) β i * residual (cols 0) (fun s => cols s.succ.succ) β i ∧
    0 < ∑ i, residual (cols 1) (fun s => cols s.succ.succ) γ i * residual (cols 1) (fun s => cols s.succ.succ) γ i ∧
    (∑ i, residual (cols 0) (fun s => cols s.succ.succ) β i * residual (cols 1) (fun s => cols s.succ.succ) γ i) ^ 2 <
      (∑ i, residual (cols 0) (fun s => cols s.succ.succ) β i * residual (cols 0) (fun s => cols s.succ.succ) β i) *
      ∑ i, residual (cols 1) (fun s => cols s.succ.succ) γ i * residual (cols 1) (fun s => cols s.succ.succ) γ i := by
  set u := residual (cols 0) (fun s => cols s.succ.succ) β with hu
  set v := residual (cols 1) (fun s => cols s.succ.succ) γ with hv
  have comb : ∀ a b : ℝ, (∀ i, a * u i + b * v i = 0) → a = 0 ∧ b = 0 := by
    intro a b hab
    have := h (fun l => a * coeffX β l + b * coeffY γ l) (fun i => by
      rw [← hab i, hu, hv, ← resid_x, ← resid_y, Finset.mul_sum, Finset.mul_sum, ← Finset.sum_add_distrib]
      exact Finset.sum_congr rfl (fun l _ => by rw [centred_eq]; ring))
    have h0 := congrFun this 0
    have h1 := congrFun this 1
    simp only [show coeffX β 0 = 1 from rfl, show coeffX β 1 = 0 from rfl, show coeffY γ 0 = 0 from rfl,
      show coeffY γ 1 = 1 from rfl, Pi.zero_apply] at h0 h1
    constructor <;> linarith
  have pos : ∀ a b : ℝ, (a ≠ 0 ∨ b ≠ 0) → 0 < ∑ i, (a * u i + b * v i) * (a * u i + b * v i) := by
    intro a b hab
    refine lt_of_le_of_ne (Finset.sum_nonneg (fun i _ => mul_self_nonneg _)) (fun h0 => ?_)
    have := (Finset.sum_eq_zero_iff_of_nonneg (fun i _ => mul_self_nonneg _)).1 h0.symm
    obtain ⟨h1, h2⟩ := comb a b (fun i => mul_self_eq_zero.1 (this i (Finset.mem_univ _)))
    rcases hab with h | h
    · exact h h1
    · exact h h2
  have expand : ∀ a b : ℝ, ∑ i, (a * u i + b * v i) * (a * u i + b * v i)
      = a ^ 2 * (∑ i, u i * u i) + 2 * a * b * (∑ i, u i * v i) + b ^ 2 * ∑ i, v i * v i := by
    intro a b
    simp only [Finset.mul_sum, ← Finset.sum_add_distrib]
    exact Finset.sum_congr rfl (fun i _ => by ring)
  have hp := pos 1 0 (Or.inl one_ne_zero)
  have hr := pos 0 1 (Or.inr one_ne_zero)
  rw [expand] at hp hr
  have hp' : 0 < ∑ i, u i * u i := by linarith
  have hr' : 0 < ∑ i, v i * v i := by linarith
  have hs := pos (∑ i, v i * v i) (-∑ i, u i * v i) (Or.inl hr'.ne')
  rw [expand] at hs
  refine ⟨hp', hr', ?_⟩
  have : 0 < (∑ i, v i * v i) * ((∑ i, u i * u i) * (∑ i, v i * v i) - (∑ i, u i * v i) ^ 2) := by
    refine lt_of_lt_of_eq hs ?_
    ring
  have := (pos_iff_pos_of_mul_pos this).1 hr'
  linarith

/-- least squares coefficients exist -/
theorem exists_leastSquares {k : ℕ} (x : Fin n → ℝ) {S : Fin k → Fin n → ℝ} (hn : 2 ≤ n) (h : NoLinearRelation S) :
    ∃ β, LeastSquares x S β := by
  have h1 : (0 : ℝ) < (n : ℝ) - 1 := by
    have : (2 : ℝ) ≤ n := by exact_mod_cast hn
    linarith
  have hC := torchCov_posDef_of hn h
  let c : Fin k → ℝ := fun s => (∑ i, dev (S s) i * dev x i) / ((n : ℝ) - 1)
  refine ⟨(torchCov S)⁻¹.mulVec c, fun s => ?_⟩
  have hb : (torchCov S).mulVec ((torchCov S)⁻¹.mulVec c) s = c s := by
    rw [Matrix.mulVec_mulVec, Matrix.mul_nonsing_inv _ hC.det_pos.ne'.isUnit, Matrix.one_mulVec]
  generalize (torchCov S)⁻¹.mulVec c = β at hb
  rw [cov_mulVec, div_eq_div_iff h1.ne' h1.ne'] at hb
  have hb := mul_right_cancel₀ h1.ne' hb
  have e : ∀ i, residual x S β i * centred (S s) i
      = dev (S s) i * dev x i - dev (S s) i * ∑ l, β l * dev (S l) i := by
    intro i
    rw [show residual x S β i = dev x i - ∑ s, β s * dev (S s) i from rfl, centred_eq]
    ring
  simp only [e]
  rw [Finset.sum_sub_distrib, hb, sub_self]

theorem noRelation_tail {k : ℕ} {cols : Fin (k + 2) → Fin n → ℝ} (h : NoLinearRelation cols) :
    NoLinearRelation (fun s : Fin k => cols s.succ.succ) := by
  intro a ha
  have := h (Fin.cons 0 (Fin.cons 0 a)) (fun i => by
    rw [sum_two]
    have := ha i
    simpa using this)
  funext s
  have hs := congrFun this s.succ.succ
  simpa using hs

theorem det_ne_zero_iff {k : ℕ} {cols : Fin k → Fin n → ℝ} (hn : 2 ≤ n) :
    (torchCov cols).det ≠ 0 ↔ NoLinearRelation cols :=
  ⟨noRelation_of_det, fun h => (torchCov_posDef_of hn h).det_pos.ne'⟩

theorem matrixParCorr_none {k : ℕ} {cols : Fin (k + 2) → Fin n → ℝ} (hn : 2 ≤ n) (h : ¬ NoLinearRelation cols) :
    matrixParCorr (torchCov cols) = none := by
  unfold matrixParCorr
  rw [if_pos]
  by_contra hd
  exact h ((det_ne_zero_iff hn).1 hd)

/-- the residual characterisation, with coefficients that exist -/
theorem parCorr_exists {k : ℕ} {cols : Fin (k + 2) → Fin n → ℝ} (hn : 2 ≤ n) (h : NoLinearRelation cols) :
    ∃ β γ, LeastSquares (cols 0) (fun s => cols s.succ.succ) β ∧ LeastSquares (cols 1) (fun s => cols s.succ.succ) γ ∧
      matrixParCorr (torchCov cols) = some (cosine (residual (cols 0) (fun s => cols s.succ.succ) β)
        (residual (cols 1) (fun s => cols s.succ.succ) γ)) := by
  obtain ⟨β, hβ⟩ := exists_leastSquares (cols 0) hn (noRelation_tail h)
  obtain ⟨γ, hγ⟩ := exists_leastSquares (cols 1) hn (noRelation_tail h)
  exact ⟨β, γ, hβ, hγ, residual_corr hn (torchCov_posDef_of hn h) hβ hγ⟩

theorem cosine_abs_lt {u v : Fin n → ℝ} (hu : 0 < ∑ i, u i * u i) (hv : 0 < ∑ i, v i * v i)
    (h : (∑ i, u i * v i) ^ 2 < (∑ i, u i * u i) * ∑ i, v i * v i) : |cosine u v| < 1 := by
  unfold cosine
  rw [abs_div, abs_of_nonneg (Real.sqrt_nonneg _), div_lt_one (Real.sqrt_pos.2 (mul_pos hu hv))]
  exact (Real.lt_sqrt (abs_nonneg _)).2 (by rwa [sq_abs])

theorem cosine_scale {u v : Fin n → ℝ} {a b : ℝ} (ha : 0 < a) (hb : 0 < b) :
    cosine (fun i => a * u i) (fun i => b * v i) = cosine u v := by
  have e : ∀ (c d : ℝ) (w z : Fin n → ℝ), ∑ i, c * w i * (d * z i) = c * d * ∑ i, w i * z i := by
    intro c d w z
    rw [Finset.mul_sum]
    exact Finset.sum_congr rfl (fun i _ => by ring)
  unfold cosine
  rw [e, e, e, show a * a * (∑ i, u i * u i) * (b * b * ∑ i, v i * v i)
    = (a * b) * (a * b) * ((∑ i, u i * u i) * ∑ i, v i * v i) by ring,
    Real.sqrt_mul (mul_self_nonneg _), Real.sqrt_mul_self (mul_pos ha hb).le,
    mul_div_mul_left _ _ (mul_pos ha hb).ne']

theorem cosine_comm (u v : Fin n → ℝ) : cosine u v = cosine v u := by
  unfold cosine
  rw [mul_comm (∑ i, u i * u i)]
  congr 1
  exact Finset.sum_congr rfl (fun _ _ => mul_comm _ _)

theorem cosine_neg (u v : Fin n → ℝ) : cosine (fun i => -u i) v = -cosine u v := by
  unfold cosine
  simp [neg_div]

theorem cosine_scale_abs {u v : Fin n → ℝ} {a b : ℝ} (ha : a ≠ 0) (hb : b ≠ 0) :
    |cosine (fun i => a * u i) (fun i => b * v i)| = |cosine u v| := by
  have key : ∀ {a b : ℝ}, a ≠ 0 → 0 < b → ∀ w z : Fin n → ℝ,
      |cosine (fun i => a * w i) (fun i => b * z i)| = |cosine w z| := by
    intro a b ha hb w z
    rcases lt_or_gt_of_ne ha with h | h
    · have := cosine_scale (u := w) (v := z) (neg_pos.2 h) hb
      rw [← this, show (fun i => -a * w i) = fun i => -(a * w i) from by funext i; ring, cosine_neg, abs_neg]
    · rw [cosine_scale h hb]
  rcases lt_or_gt_of_ne hb with h | h
  · have := key ha (neg_pos.2 h) u v
    rw [← this, cosine_comm, cosine_comm _ (fun i => -b * v i),
      show (fun i => -b * v i) = fun i => -(b * v i) from by funext i; ring, cosine_neg, abs_neg]
  · exact key ha h u v

end Stats
end Verif
