import Mathlib.Probability.CDF
import Mathlib.Probability.Distributions.Gaussian.Real
import Verif.Linear.Spec

/-!
# The distribution function of the standard normal distribution is an admissible `Φ`
-/

namespace Verif
namespace Linear
open MeasureTheory ProbabilityTheory Set

/-- the distribution function of the standard normal distribution -/
noncomputable def normalCdf : ℝ → ℝ := fun x => cdf (gaussianReal 0 1) x

theorem normalCdf_eq (x : ℝ) : normalCdf x = (gaussianReal 0 1).real (Iic x) := cdf_eq_real _ x

theorem normalCdf_strictMono : StrictMono normalCdf := by
  intro x y hxy
  rw [normalCdf_eq, normalCdf_eq]
  have hpos : 0 < (gaussianReal 0 1) (Ioc x y) := by
    refine pos_iff_ne_zero.2 (fun h0 => ?_)
    have := gaussianReal_absolutelyContinuous' 0 (one_ne_zero (α := NNReal)) h0
    rw [Real.volume_Ioc, ENNReal.ofReal_eq_zero] at this
    linarith
  have hu : (gaussianReal 0 1).real (Iic y) = (gaussianReal 0 1).real (Iic x) + (gaussianReal 0 1).real (Ioc x y) := by
    rw [← measureReal_union _ measurableSet_Ioc, Iic_union_Ioc_eq_Iic hxy.le]
    rw [Set.disjoint_left]
    intro z hz hz'
    exact absurd hz (not_le.2 hz'.1)
  rw [hu]
  have : 0 < (gaussianReal 0 1).real (Ioc x y) := ENNReal.toReal_pos hpos.ne' (measure_ne_top _ _)
  linarith

theorem normalCdf_half : normalCdf 0 = 1 / 2 := by
  rw [normalCdf_eq]
  have h1 : (gaussianReal 0 1).real (Iic 0) = (gaussianReal 0 1).real (Ici 0) := by
    have hm : (gaussianReal 0 1).map (fun x : ℝ => -x) = gaussianReal 0 1 := by
      rw [gaussianReal_map_neg, neg_zero]
    conv_rhs => rw [← hm]
    rw [map_measureReal_apply measurable_neg measurableSet_Ici]
    congr 1
    ext z
    simp
  have h2 : (gaussianReal 0 1).real (Iic 0) + (gaussianReal 0 1).real (Ioi 0) = 1 := by
    have hd : Disjoint (Iic (0 : ℝ)) (Ioi 0) := by
      rw [Set.disjoint_left]
      intro z hz hz'
      exact absurd (mem_Iic.1 hz) (not_le.2 (mem_Ioi.1 hz'))
    rw [← measureReal_union hd measurableSet_Ioi, Iic_union_Ioi]
    simp
  have h3 : (gaussianReal 0 1).real (Ici 0) = (gaussianReal 0 1).real (Ioi 0) := by
    have := noAtoms_gaussianReal (μ := 0) (v := 1) one_ne_zero
    exact (measureReal_congr Ioi_ae_eq_Ici).symm
  rw [← h3, ← h1] at h2
  linarith

theorem normalCdf_normalLike : NormalLike normalCdf := ⟨normalCdf_strictMono, normalCdf_half⟩

theorem normalCdf_lt_one (x : ℝ) : normalCdf x < 1 :=
  lt_of_lt_of_le (normalCdf_strictMono (lt_add_one x)) (cdf_le_one _ _)

theorem normalCdf_continuous : Continuous normalCdf := by
  have := noAtoms_gaussianReal (μ := 0) (v := 1) one_ne_zero
  refine continuous_iff_continuousAt.2 (fun x => ?_)
  show ContinuousAt (cdf (gaussianReal 0 1)) x
  rw [(monotone_cdf _).continuousAt_iff_leftLim_eq_rightLim, StieltjesFunction.rightLim_eq]
  have h := (cdf (gaussianReal 0 1)).measure_singleton x
  rw [measure_cdf, measure_singleton] at h
  have h1 := ENNReal.ofReal_eq_zero.1 h.symm
  have h2 := (monotone_cdf (gaussianReal 0 1)).leftLim_le (le_refl x)
  linarith

/-- every significance level has a critical value -/
theorem normalCdf_critical {threshold : ℝ} (h0 : 0 < threshold) (h1 : threshold < 1) :
    ∃ q, normalCdf q = 1 - threshold / 2 := by
  have ht := tendsto_cdf_atTop (gaussianReal 0 1)
  obtain ⟨b, hb⟩ := (ht.eventually (lt_mem_nhds (show 1 - threshold / 2 < 1 by linarith))).exists
  have hab : (0 : ℝ) ≤ b := by
    rcases le_total 0 b with h | h
    · exact h
    · have := normalCdf_strictMono.monotone h
      rw [normalCdf_half] at this
      have : normalCdf b > 1 - threshold / 2 := hb
      linarith
  obtain ⟨q, _, hq⟩ := intermediate_value_Icc hab normalCdf_continuous.continuousOn
    (show 1 - threshold / 2 ∈ Icc (normalCdf 0) (normalCdf b) from ⟨by rw [normalCdf_half]; linarith, hb.le⟩)
  exact ⟨q, hq⟩

end Linear
end Verif
