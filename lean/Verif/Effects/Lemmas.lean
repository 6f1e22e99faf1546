import Mathlib.Analysis.InnerProductSpace.Projection.Basic
import Mathlib.Analysis.InnerProductSpace.PiL2
import Mathlib.Tactic.Linarith
import Mathlib.Tactic.FieldSimp
import Mathlib.Tactic.Positivity
import Verif.Effects.Spec

/-!
# Helper lemmas: normal equations, existence and uniqueness of the shortest best fit
-/

namespace Verif
namespace Effects
variable {κ : Type} {n : ℕ} {P : Finset κ} {X : κ → Fin n → ℝ} {y : Fin n → ℝ}

/-- the residuals are orthogonal to the columns -/
def Normal (P : Finset κ) (X : κ → Fin n → ℝ) (y : Fin n → ℝ) (β : κ → ℝ) : Prop :=
  ∀ p ∈ P, ∑ i, (y i - ∑ q ∈ P, β q * X q i) * X p i = 0

theorem Normal.comb {β : κ → ℝ} (h : Normal P X y β) (γ : κ → ℝ) :
    ∑ i, (y i - ∑ q ∈ P, β q * X q i) * (∑ p ∈ P, γ p * X p i) = 0 := by
  have : ∑ i, (y i - ∑ q ∈ P, β q * X q i) * (∑ p ∈ P, γ p * X p i) =
      ∑ p ∈ P, γ p * ∑ i, (y i - ∑ q ∈ P, β q * X q i) * X p i := by
    simp only [Finset.mul_sum]
    rw [Finset.sum_comm]
    refine Finset.sum_congr rfl (fun p _ => Finset.sum_congr rfl (fun i _ => by ring))
  rw [this]
  exact Finset.sum_eq_zero (fun p hp => by rw [h p hp, mul_zero])

theorem Normal.residual {β : κ → ℝ} (h : Normal P X y β) (γ : κ → ℝ) :
    residual P X y γ = residual P X y β + ∑ i, (∑ p ∈ P, (β p - γ p) * X p i) ^ 2 := by
  have hc := h.comb (fun p => β p - γ p)
  have : Effects.residual P X y γ = Effects.residual P X y β + ∑ i, (∑ p ∈ P, (β p - γ p) * X p i) ^ 2 +
      2 * ∑ i, (y i - ∑ q ∈ P, β q * X q i) * (∑ p ∈ P, (β p - γ p) * X p i) := by
    unfold Effects.residual
    rw [Finset.mul_sum, ← Finset.sum_add_distrib, ← Finset.sum_add_distrib]
    refine Finset.sum_congr rfl (fun i _ => ?_)
    simp only [sub_mul, Finset.sum_sub_distrib]
    ring
  rw [this, hc]; ring

theorem Normal.best {β : κ → ℝ} (h : Normal P X y β) : BestFit P X y β := by
  intro γ
  rw [h.residual γ]
  exact le_add_of_nonneg_right (Finset.sum_nonneg (fun i _ => sq_nonneg _))

theorem BestFit.normal [DecidableEq κ] {β : κ → ℝ} (h : BestFit P X y β) : Normal P X y β := by
  intro p hp
  set N := ∑ i, (y i - ∑ q ∈ P, β q * X q i) * X p i with hN
  set S := ∑ i, X p i ^ 2 with hS
  have hS0 : 0 ≤ S := Finset.sum_nonneg (fun i _ => sq_nonneg _)
  have key : ∀ t : ℝ, residual P X y (fun q => if q = p then β q + t else β q) =
      residual P X y β - 2 * t * N + t ^ 2 * S := by
    intro t
    have hi : ∀ i, ∑ q ∈ P, (if q = p then β q + t else β q) * X q i = ∑ q ∈ P, β q * X q i + t * X p i := by
      intro i
      have : ∀ q ∈ P, (if q = p then β q + t else β q) * X q i = β q * X q i + (if q = p then t * X p i else 0) := by
        intro q _
        by_cases hq : q = p
        · subst hq; simp; ring
        · simp [hq]
      rw [Finset.sum_congr rfl this, Finset.sum_add_distrib, Finset.sum_ite_eq' P p, if_pos hp]
    unfold residual
    simp only [hi]
    rw [hN, hS, Finset.mul_sum, Finset.mul_sum, ← Finset.sum_sub_distrib, ← Finset.sum_add_distrib]
    exact Finset.sum_congr rfl (fun i _ => by ring)
  have h1 := h (fun q => if q = p then β q + N / (S + 1) else β q)
  rw [key] at h1
  have hpos : 0 < S + 1 := by linarith
  have h2 : 0 ≤ -2 * (N / (S + 1)) * N + (N / (S + 1)) ^ 2 * S := by linarith
  have h3 : (-2 * (N / (S + 1)) * N + (N / (S + 1)) ^ 2 * S) * (S + 1) ^ 2 = - (N ^ 2 * (S + 2)) := by
    field_simp
    ring
  have h4 : 0 ≤ - (N ^ 2 * (S + 2)) := by rw [← h3]; positivity
  have h5 : N ^ 2 * (S + 2) ≤ 0 := by linarith
  have h6 : N ^ 2 ≤ 0 := by
    by_contra hc
    push Not at hc
    have : 0 < N ^ 2 * (S + 2) := by positivity
    linarith
  exact pow_eq_zero_iff (two_ne_zero) |>.1 (le_antisymm h6 (sq_nonneg N))

theorem bestFit_iff [DecidableEq κ] {β : κ → ℝ} : BestFit P X y β ↔ Normal P X y β := ⟨BestFit.normal, Normal.best⟩

/-- two best fits predict the same -/
theorem BestFit.pred_eq [DecidableEq κ] {β γ : κ → ℝ} (hb : BestFit P X y β) (hg : BestFit P X y γ) (i : Fin n) :
    ∑ p ∈ P, (β p - γ p) * X p i = 0 := by
  have h1 := hb.normal.residual γ
  have h2 : residual P X y γ = residual P X y β := le_antisymm (hg β) (hb γ)
  have h3 : ∑ i, (∑ p ∈ P, (β p - γ p) * X p i) ^ 2 = 0 := by linarith
  exact pow_eq_zero_iff two_ne_zero |>.1
    ((Finset.sum_eq_zero_iff_of_nonneg (fun i _ => sq_nonneg _)).1 h3 i (Finset.mem_univ i))

theorem Independent.unique [DecidableEq κ] (h : Independent P X) {β γ : κ → ℝ} (hb : BestFit P X y β)
    (hg : BestFit P X y γ) : ∀ p ∈ P, β p = γ p := by
  intro p hp
  have := h (fun p => β p - γ p) (fun i => hb.pred_eq hg i) p hp
  exact sub_eq_zero.1 this

/-- the shortest best fit is unique, whether or not the columns are independent -/
theorem ShortestFit.unique [DecidableEq κ] {β γ : κ → ℝ} (hb : ShortestFit P X y β) (hg : ShortestFit P X y γ) :
    ∀ p ∈ P, β p = γ p := by
  have hm : BestFit P X y (fun p => (β p + γ p) / 2) := by
    refine Normal.best ?_
    intro p hp
    have h1 := hb.1.normal p hp
    have h2 := hg.1.normal p hp
    have : ∑ i, (y i - ∑ q ∈ P, (β q + γ q) / 2 * X q i) * X p i =
        (∑ i, (y i - ∑ q ∈ P, β q * X q i) * X p i) / 2 + (∑ i, (y i - ∑ q ∈ P, γ q * X q i) * X p i) / 2 := by
      rw [Finset.sum_div, Finset.sum_div, ← Finset.sum_add_distrib]
      refine Finset.sum_congr rfl (fun i _ => ?_)
      have : ∑ q ∈ P, (β q + γ q) / 2 * X q i = (∑ q ∈ P, β q * X q i) / 2 + (∑ q ∈ P, γ q * X q i) / 2 := by
        rw [Finset.sum_div, Finset.sum_div, ← Finset.sum_add_distrib]
        exact Finset.sum_congr rfl (fun q _ => by ring)
      rw [this]; ring
    rw [this, h1, h2]; ring
  have h1 := hb.2 _ hm
  have h2 := hg.2 _ hm
  have h3 : ∑ p ∈ P, ((β p + γ p) / 2) ^ 2 = (∑ p ∈ P, β p ^ 2) / 2 + (∑ p ∈ P, γ p ^ 2) / 2
      - (∑ p ∈ P, (β p - γ p) ^ 2) / 4 := by
    rw [Finset.sum_div, Finset.sum_div, Finset.sum_div, ← Finset.sum_add_distrib, ← Finset.sum_sub_distrib]
    exact Finset.sum_congr rfl (fun p _ => by ring)
  have h4 : 0 ≤ ∑ p ∈ P, (β p - γ p) ^ 2 := Finset.sum_nonneg (fun p _ => sq_nonneg _)
  have h5 : ∑ p ∈ P, (β p - γ p) ^ 2 = 0 := by
    rw [h3] at h1 h2; linarith
  intro p hp
  have := (Finset.sum_eq_zero_iff_of_nonneg (fun p _ => sq_nonneg _)).1 h5 p hp
  exact sub_eq_zero.1 (pow_eq_zero_iff two_ne_zero |>.1 this)

/-- subtracting known contributions -/
theorem BestFit.shift [DecidableEq κ] {β w : κ → ℝ} {ε : Fin n → ℝ} (hy : ∀ i, y i = ∑ p ∈ P, w p * X p i + ε i) :
    BestFit P X y β ↔ BestFit P X ε (fun p => β p - w p) := by
  rw [bestFit_iff, bestFit_iff]
  unfold Normal
  have : ∀ i, y i - ∑ q ∈ P, β q * X q i = ε i - ∑ q ∈ P, (β q - w q) * X q i := by
    intro i
    simp only [sub_mul, Finset.sum_sub_distrib]
    rw [hy i]; ring
  simp only [this]

/-! ## existence -/

theorem exists_best (k n : ℕ) (X : Fin k → Fin n → ℝ) (y : Fin n → ℝ) : ∃ β, BestFit Finset.univ X y β := by
  let v : Fin k → EuclideanSpace ℝ (Fin n) := fun p => WithLp.toLp 2 (X p)
  let K : Submodule ℝ (EuclideanSpace ℝ (Fin n)) := Submodule.span ℝ (Set.range v)
  let yy : EuclideanSpace ℝ (Fin n) := WithLp.toLp 2 y
  have hmem : (K.orthogonalProjectionOnto yy : EuclideanSpace ℝ (Fin n)) ∈ K := (K.orthogonalProjectionOnto yy).2
  obtain ⟨c, hc⟩ := (Submodule.mem_span_range_iff_exists_fun ℝ).1 hmem
  refine ⟨c, Normal.best ?_⟩
  intro p _
  have horth : inner ℝ (v p) (yy - K.orthogonalProjectionOnto yy) = 0 := by
    have := K.sub_starProjection_mem_orthogonal yy
    exact (Submodule.mem_orthogonal K _).1 this (v p) (Submodule.subset_span ⟨p, rfl⟩)
  rw [← hc] at horth
  rw [PiLp.inner_apply] at horth
  rw [← horth]
  refine Finset.sum_congr rfl (fun i _ => ?_)
  simp [v, yy]

theorem exists_shortest (k n : ℕ) (X : Fin k → Fin n → ℝ) (y : Fin n → ℝ) : ∃ β, ShortestFit Finset.univ X y β := by
  obtain ⟨β₀, h₀⟩ := exists_best k n X y
  let A : EuclideanSpace ℝ (Fin k) →ₗ[ℝ] (Fin n → ℝ) :=
    { toFun := fun β i => ∑ p, β p * X p i
      map_add' := by intro a b; funext i; simp [add_mul, Finset.sum_add_distrib]
      map_smul' := by intro a b; funext i; simp [Finset.mul_sum, mul_assoc] }
  let K : Submodule ℝ (EuclideanSpace ℝ (Fin k)) := LinearMap.ker A
  let b0 : EuclideanSpace ℝ (Fin k) := WithLp.toLp 2 β₀
  let b : EuclideanSpace ℝ (Fin k) := b0 - K.orthogonalProjectionOnto b0
  have hA : A b = A b0 := by
    have : A (K.orthogonalProjectionOnto b0 : EuclideanSpace ℝ (Fin k)) = 0 := (K.orthogonalProjectionOnto b0).2
    simp only [b, map_sub, this, sub_zero]
  have hAi : ∀ i, ∑ p, b p * X p i = ∑ p, β₀ p * X p i := fun i => congrFun hA i
  have hres : ∀ γ : Fin k → ℝ, (∀ i, ∑ p, γ p * X p i = ∑ p, β₀ p * X p i) → BestFit Finset.univ X y γ := by
    intro γ hγ γ'
    have : residual Finset.univ X y γ = residual Finset.univ X y β₀ := by
      unfold residual; simp only [hγ]
    rw [this]; exact h₀ γ'
  refine ⟨fun p => b p, hres _ hAi, ?_⟩
  intro γ hγ
  have hd := hγ.pred_eq (hres _ hAi)
  let d : EuclideanSpace ℝ (Fin k) := WithLp.toLp 2 (fun p => γ p - b p)
  have hdK : d ∈ K := by
    rw [LinearMap.mem_ker]; funext i; exact hd i
  have horth : inner ℝ d b = 0 := by
    have := K.sub_starProjection_mem_orthogonal b0
    exact (Submodule.mem_orthogonal K _).1 this d hdK
  rw [PiLp.inner_apply] at horth
  have horth' : ∑ p, (γ p - b p) * b p = 0 := by
    rw [← horth]
    refine Finset.sum_congr rfl (fun p _ => ?_)
    simp [d, mul_comm]
  have : ∑ p, γ p ^ 2 = ∑ p, b p ^ 2 + ∑ p, (γ p - b p) ^ 2 + 2 * ∑ p, (γ p - b p) * b p := by
    rw [Finset.mul_sum, ← Finset.sum_add_distrib, ← Finset.sum_add_distrib]
    exact Finset.sum_congr rfl (fun p _ => by ring)
  rw [this, horth']
  have : 0 ≤ ∑ p, (γ p - b p) ^ 2 := Finset.sum_nonneg (fun p _ => sq_nonneg _)
  linarith

end Effects
end Verif
