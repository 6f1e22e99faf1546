import Mathlib.Topology.Instances.Matrix
import Mathlib.Analysis.SpecialFunctions.Log.Basic
import Mathlib.Topology.MetricSpace.Pseudo.Pi
import Verif.Linear.Lemmas2

/-!
# Lemmas: partial correlations depend continuously on the data
-/

namespace Verif
namespace Linear
open Dag Stats Filter Topology
variable {ι : Type} [DecidableEq ι] {E : ι → ι → Prop} {n : ℕ}

theorem continuous_torchCov {k : ℕ} : Continuous (fun cols : Fin k → Fin n → ℝ => torchCov cols) := by
  refine continuous_matrix (fun a b => ?_)
  unfold torchCov dev mean
  simp only [Matrix.of_apply]
  fun_prop

/-- the entries of the inverse are continuous where the determinant does not vanish -/
theorem continuousAt_inv_entry {k : ℕ} {cols : Fin k → Fin n → ℝ} (h : (torchCov cols).det ≠ 0) (a b : Fin k) :
    ContinuousAt (fun c : Fin k → Fin n → ℝ => (torchCov c)⁻¹ a b) cols := by
  have e : (fun c : Fin k → Fin n → ℝ => (torchCov c)⁻¹ a b)
      = fun c => ((torchCov c).det)⁻¹ * (torchCov c).adjugate a b := by
    funext c
    rw [Matrix.inv_def, Ring.inverse_eq_inv', Matrix.smul_apply, smul_eq_mul]
  rw [e]
  have hd : Continuous (fun c : Fin k → Fin n → ℝ => (torchCov c).det) := continuous_torchCov.matrix_det
  have ha : Continuous (fun c : Fin k → Fin n → ℝ => (torchCov c).adjugate a b) :=
    continuous_torchCov.matrix_adjugate.matrix_elem a b
  exact (hd.continuousAt.inv₀ h).mul ha.continuousAt

/-- the partial correlation as a function of the columns -/
noncomputable def pcor {k : ℕ} (cols : Fin (k + 2) → Fin n → ℝ) : ℝ :=
  -(torchCov cols)⁻¹ 0 1 / √((torchCov cols)⁻¹ 0 0 * (torchCov cols)⁻¹ 1 1)

theorem pcor_eq {k : ℕ} {cols : Fin (k + 2) → Fin n → ℝ} (hn : 2 ≤ n) (h : NoLinearRelation cols) :
    matrixParCorr (torchCov cols) = some (pcor cols) := matrixParCorr_eq (torchCov_posDef_of hn h)

theorem continuousAt_pcor {k : ℕ} {cols : Fin (k + 2) → Fin n → ℝ} (hn : 2 ≤ n) (h : NoLinearRelation cols) :
    ContinuousAt pcor cols := by
  have hP := torchCov_posDef_of hn h
  have hd := hP.det_pos.ne'
  have hI := hP.inv
  refine ContinuousAt.div (continuousAt_inv_entry hd 0 1).neg
    (((continuousAt_inv_entry hd 0 0).mul (continuousAt_inv_entry hd 1 1)).sqrt) ?_
  exact (Real.sqrt_pos.2 (mul_pos hI.diag_pos hI.diag_pos)).ne'

theorem continuousAt_statistic {s c : ℕ} {r : ℝ} (h : |r| < 1) : ContinuousAt (statistic s c) r := by
  obtain ⟨h1, h2⟩ := abs_lt.1 h
  unfold statistic
  have hq : ContinuousAt (fun r : ℝ => (1 + r) / (1 - r)) r :=
    ContinuousAt.div (by fun_prop) (by fun_prop) (by linarith)
  have : ContinuousAt (fun r : ℝ => Real.log ((1 + r) / (1 - r))) r :=
    hq.log (div_pos (by linarith) (by linarith)).ne'
  exact ((this.const_mul _).abs).mul_const _

/-- no relation is an open condition -/
theorem noLinearRelation_open {k : ℕ} {cols : Fin k → Fin n → ℝ} (hn : 2 ≤ n) (h : NoLinearRelation cols) :
    ∀ᶠ c in 𝓝 cols, NoLinearRelation c := by
  have hd : Continuous (fun c : Fin k → Fin n → ℝ => (torchCov c).det) := continuous_torchCov.matrix_det
  have := hd.continuousAt.eventually_ne ((det_ne_zero_iff hn).2 h)
  filter_upwards [this] with c hc
  exact (det_ne_zero_iff hn).1 hc

/-- every question has a neighbourhood of the data in which the statistic stays on its side -/
theorem statistic_stays {col : ι → Fin n → ℝ} {N : List ι} (hn : 2 ≤ n) (h : NoRelation col N) {x y : ι} {S : List ι}
    (hq : Question N x y S) {q : ℝ} (hne : ∀ r, PartialCorr col x y S r → statistic n S.length r ≠ q) :
    ∃ δ > 0, ∀ col' : ι → Fin n → ℝ, (∀ v ∈ N, ∀ i, |col' v i - col v i| < δ) →
      ∀ r r', PartialCorr col x y S r → PartialCorr col' x y S r' →
        (statistic n S.length r' < q ↔ statistic n S.length r < q) := by
  obtain ⟨r, hr, hlt, hm, hu⟩ := partialCorr_unique hn h hq
  have hl : NoLinearRelation (colsOf col x y S) := h.list hq.1 hq.2
  have er : r = pcor (colsOf col x y S) := by
    rw [pcor_eq hn hl] at hm
    exact (Option.some.inj hm).symm
  have hc : ContinuousAt (fun c : Fin (S.length + 2) → Fin n → ℝ => statistic n S.length (pcor c)) (colsOf col x y S) := by
    refine ContinuousAt.comp' ?_ (continuousAt_pcor hn hl)
    rw [← er]
    exact continuousAt_statistic hlt
  have hside : ∀ᶠ c in 𝓝 (colsOf col x y S), (statistic n S.length (pcor c) < q ↔ statistic n S.length r < q) := by
    rcases lt_or_gt_of_ne (hne r hr) with hh | hh
    · have := hc.eventually (gt_mem_nhds (show statistic n S.length (pcor (colsOf col x y S)) < q from er ▸ hh))
      filter_upwards [this] with c hc
      exact ⟨fun _ => hh, fun _ => hc⟩
    · have := hc.eventually (lt_mem_nhds (show q < statistic n S.length (pcor (colsOf col x y S)) from er ▸ hh))
      filter_upwards [this] with c hc
      exact ⟨fun h => absurd h (not_lt.2 hc.le), fun h => absurd h (not_lt.2 hh.le)⟩
  obtain ⟨δ, hδ, hball⟩ := Metric.eventually_nhds_iff.1 (hside.and (noLinearRelation_open hn hl))
  refine ⟨δ, hδ, fun col' hcol r0 r' h0 h' => ?_⟩
  obtain rfl := hu r0 h0
  have hd : dist (colsOf col' x y S) (colsOf col x y S) < δ := by
    refine (dist_pi_lt_iff hδ).2 (fun j => (dist_pi_lt_iff hδ).2 (fun i => ?_))
    rw [Real.dist_eq]
    exact hcol _ (hq.2 _ (List.get_mem _ _)) i
  obtain ⟨hs, hl'⟩ := hball hd
  have e' : r' = pcor (colsOf col' x y S) := by
    obtain ⟨β, γ, h1, h2, h3⟩ := h'
    have := (C49_residuals hn hl').2.2 β γ h1 h2
    rw [pcor_eq hn hl'] at this
    rw [h3]
    exact (Option.some.inj this).symm
  rw [e']
  exact hs

theorem noRelation_of_list {col : ι → Fin n → ℝ} {N : List ι}
    (h : NoLinearRelation (fun j : Fin N.dedup.length => col (N.dedup.get j))) : NoRelation col N := by
  intro a ha v hv
  have hz := h (fun j => a (N.dedup.get j)) (fun i => by
    have e1 : N.toFinset = N.dedup.toFinset := by ext; simp
    have e2 := List.sum_toFinset (fun v => a v * centred (col v) i) N.nodup_dedup
    rw [← e1, ha i] at e2
    rw [e2]
    conv_rhs => rw [← List.ofFn_get N.dedup, List.map_ofFn, List.sum_ofFn]
    rfl)
  obtain ⟨j, rfl⟩ := List.get_of_mem (List.mem_dedup.2 hv)
  exact congrFun hz j

/-- the data have a neighbourhood in which they stay without relation -/
theorem noRelation_stays {col : ι → Fin n → ℝ} {N : List ι} (hn : 2 ≤ n) (h : NoRelation col N) :
    ∃ δ > 0, ∀ col' : ι → Fin n → ℝ, (∀ v ∈ N, ∀ i, |col' v i - col v i| < δ) → NoRelation col' N := by
  have hl := h.list (l := N.dedup) N.nodup_dedup (fun v hv => List.mem_dedup.1 hv)
  obtain ⟨δ, hδ, hball⟩ := Metric.eventually_nhds_iff.1 (noLinearRelation_open hn hl)
  refine ⟨δ, hδ, fun col' hcol => noRelation_of_list (hball ?_)⟩
  refine (dist_pi_lt_iff hδ).2 (fun j => (dist_pi_lt_iff hδ).2 (fun i => ?_))
  rw [Real.dist_eq]
  exact hcol _ (List.mem_dedup.1 (List.get_mem _ _)) i

/-- finitely many conditions have a common neighbourhood -/
theorem common_delta {α : Type} (L : List α) {P : α → Prop} (col : ι → Fin n → ℝ) (N : List ι)
    {R : α → (ι → Fin n → ℝ) → Prop}
    (h : ∀ t, P t → ∃ δ > 0, ∀ col' : ι → Fin n → ℝ, (∀ v ∈ N, ∀ i, |col' v i - col v i| < δ) → R t col') :
    ∃ δ > 0, ∀ col' : ι → Fin n → ℝ, (∀ v ∈ N, ∀ i, |col' v i - col v i| < δ) → ∀ t ∈ L, P t → R t col' := by
  induction L with
  | nil => exact ⟨1, one_pos, fun _ _ t ht => absurd ht List.not_mem_nil⟩
  | cons t L ih =>
    obtain ⟨δ, hδ, h1⟩ := ih
    by_cases hP : P t
    · obtain ⟨ε, hε, h2⟩ := h t hP
      refine ⟨min δ ε, lt_min hδ hε, fun col' hc s hs hPs => ?_⟩
      rcases List.mem_cons.1 hs with rfl | hs
      · exact h2 col' (fun v hv i => (hc v hv i).trans_le (min_le_right _ _))
      · exact h1 col' (fun v hv i => (hc v hv i).trans_le (min_le_left _ _)) s hs hPs
    · refine ⟨δ, hδ, fun col' hc s hs hPs => ?_⟩
      rcases List.mem_cons.1 hs with rfl | hs
      · exact absurd hPs hP
      · exact h1 col' hc s hs hPs

/-- all questions, as one list -/
theorem question_mem {N : List ι} {x y : ι} {S : List ι} (h : Question N x y S) :
    (x :: y :: S) ∈ N.sublists.flatMap List.permutations := by
  obtain ⟨l, h1, h2⟩ := (List.subperm_of_subset h.1 (fun z hz => h.2 z hz) : (x :: y :: S).Subperm N)
  exact List.mem_flatMap.2 ⟨l, List.mem_sublists.2 h2, List.mem_permutations.2 h1.symm⟩

/-- a common neighbourhood for all questions -/
theorem right_stays {col : ι → Fin n → ℝ} {N : List ι} (hn : 2 ≤ n) (h : NoRelation col N) {q : ℝ} (hR : Right E N q col)
    (hne : ∀ x y S, Question N x y S → ∀ r, PartialCorr col x y S r → statistic n S.length r ≠ q) :
    ∃ δ > 0, ∀ col' : ι → Fin n → ℝ, (∀ v ∈ N, ∀ i, |col' v i - col v i| < δ) → NoRelation col' N ∧ Right E N q col' := by
  obtain ⟨δ, hδ, h1⟩ := noRelation_stays hn h
  obtain ⟨ε, hε, h2⟩ := common_delta (N.sublists.flatMap List.permutations)
    (P := fun l => ∃ x y S, l = x :: y :: S ∧ Question N x y S) col N
    (R := fun l col' => ∀ x y S, l = x :: y :: S → ∀ r r', PartialCorr col x y S r → PartialCorr col' x y S r' →
      (statistic n S.length r' < q ↔ statistic n S.length r < q)) (by
      rintro _ ⟨x, y, S, rfl, hq⟩
      obtain ⟨δ, hδ, hs⟩ := statistic_stays hn h hq (hne x y S hq)
      refine ⟨δ, hδ, fun col' hc x' y' S' he => ?_⟩
      cases he
      exact hs col' hc)
  refine ⟨min δ ε, lt_min hδ hε, fun col' hc => ⟨?_, ?_⟩⟩
  · exact h1 col' (fun v hv i => (hc v hv i).trans_le (min_le_left _ _))
  · intro x y S hq r' hr'
    obtain ⟨r, hr, _⟩ := partialCorr_unique hn h hq
    rw [← hR x y S hq r hr]
    exact h2 col' (fun v hv i => (hc v hv i).trans_le (min_le_right _ _)) _ (question_mem hq) ⟨x, y, S, rfl, hq⟩ x y S rfl
      r r' hr hr'

end Linear
end Verif
