import Mathlib.Analysis.Matrix.PosDef
import Mathlib.Probability.Distributions.Gaussian.Real
import Verif.Sample.Pinv
import Verif.Sample.InitialLemmas

/-!
# Every stable model has a steady series
-/

namespace Verif
namespace Sample
open Matrix Filter Topology MeasureTheory ProbabilityTheory

section
variable {N : Type} [Fintype N] [DecidableEq N]

theorem solution_symm {A S Q : Matrix N N ℝ} (hA : Tendsto (fun k : ℕ => A ^ k) atTop (𝓝 0)) (hS : S = A * S * Aᵀ + Q)
    (hQ : Qᵀ = Q) : Sᵀ = S := by
  refine solution_unique hA ?_ hS
  conv_lhs => rw [hS]
  rw [transpose_add, transpose_mul, transpose_mul, transpose_transpose, hQ, Matrix.mul_assoc]

theorem solution_posSemidef {A S Q : Matrix N N ℝ} (hA : Tendsto (fun k : ℕ => A ^ k) atTop (𝓝 0)) (hS : S = A * S * Aᵀ + Q)
    (hQ : Q.PosSemidef) : S.PosSemidef := by
  have hQt : Qᵀ = Q := by simpa [conjTranspose_eq_transpose_of_trivial] using hQ.1.eq
  refine PosSemidef.of_dotProduct_mulVec_nonneg ?_ (fun x => ?_)
  · rw [IsHermitian, conjTranspose_eq_transpose_of_trivial]
    exact solution_symm hA hS hQt
  · have h1 : Tendsto (fun k : ℕ => star x ⬝ᵥ ((A ^ k * S * (A ^ k)ᵀ) *ᵥ x)) atTop (𝓝 0) := by
      have hc : Continuous (fun M : Matrix N N ℝ => star x ⬝ᵥ (M *ᵥ x)) := by fun_prop
      have := (hc.tendsto 0).comp (tendsto_sandwich hA S)
      simpa [Function.comp_def] using this
    have h2 : ∀ k : ℕ, star x ⬝ᵥ ((A ^ k * S * (A ^ k)ᵀ) *ᵥ x) ≤ star x ⬝ᵥ (S *ᵥ x) := by
      intro k
      have h3 : star x ⬝ᵥ (S *ᵥ x) = star x ⬝ᵥ ((A ^ k * S * (A ^ k)ᵀ +
          ∑ j ∈ Finset.range k, A ^ j * Q * (A ^ j)ᵀ) *ᵥ x) := by rw [← iterate hS k]
      rw [h3, add_mulVec, dotProduct_add]
      have h4 : (∑ j ∈ Finset.range k, A ^ j * Q * (A ^ j)ᵀ).PosSemidef :=
        posSemidef_sum _ (fun j _ => by
          have := hQ.mul_mul_conjTranspose_same (A ^ j)
          rwa [conjTranspose_eq_transpose_of_trivial] at this)
      have := h4.dotProduct_mulVec_nonneg x
      linarith
    exact le_of_tendsto' h1 h2

theorem exists_sqrt {S : Matrix N N ℝ} (hS : S.PosSemidef) : ∃ B : Matrix N N ℝ, B * Bᵀ = S := by
  have h := hS.1.spectral_theorem
  let φ := Unitary.conjStarAlgAut ℝ (Matrix N N ℝ) hS.1.eigenvectorUnitary
  let E : Matrix N N ℝ := diagonal (fun i => √(hS.1.eigenvalues i))
  refine ⟨φ E, ?_⟩
  have h1 : (φ E)ᵀ = φ E := by
    have h1 : star (φ E) = φ (star E) := (map_star φ E).symm
    simpa [star_eq_conjTranspose, conjTranspose_eq_transpose_of_trivial, E] using h1
  rw [h1, ← map_mul]
  refine Eq.trans ?_ h.symm
  congr 1
  simp only [E, diagonal_mul_diagonal, diagonal_eq_diagonal_iff]
  intro i
  exact Real.mul_self_sqrt (hS.eigenvalues_nonneg i)

/-- independent standard normal variables -/
noncomputable def white (κ : Type) [Fintype κ] : Measure (κ → ℝ) := Measure.pi (fun _ => gaussianReal 0 1)

instance (κ : Type) [Fintype κ] : IsProbabilityMeasure (white κ) := by
  unfold white
  infer_instance

theorem white_memLp (k : N) : MemLp (fun ω : N → ℝ => ω k) 2 (white N) := by
  have h1 : MemLp id 2 (gaussianReal 0 1) := memLp_id_gaussianReal' 2 (by simp)
  exact h1.comp_measurePreserving (measurePreserving_eval (fun _ : N => gaussianReal 0 1) k)

theorem white_cov (k l : N) : cov[fun ω : N → ℝ => ω k, fun ω => ω l; white N] = if k = l then 1 else 0 := by
  by_cases h : k = l
  · subst h
    rw [if_pos rfl, covariance_self (measurable_pi_apply k).aemeasurable]
    have h1 := (measurePreserving_eval (fun _ : N => gaussianReal 0 1) k)
    have h2 := variance_map (μ := white N) (X := id) (Y := fun ω : N → ℝ => ω k)
      aemeasurable_id (measurable_pi_apply k).aemeasurable
    have h3 : Measure.map (fun ω : N → ℝ => ω k) (white N) = gaussianReal 0 1 := h1.map_eq
    rw [h3, variance_id_gaussianReal] at h2
    simpa using h2.symm
  · rw [if_neg h]
    have h1 : iIndepFun (fun (i : N) (ω : N → ℝ) => ω i) (white N) :=
      iIndepFun_pi (X := fun _ => id) (fun _ => aemeasurable_id)
    exact (h1.indepFun h).covariance_eq_zero (white_memLp k) (white_memLp l)

/-- the linear combination with the coefficients `c` -/
def lin (c : N → ℝ) (ω : N → ℝ) : ℝ := ∑ k, c k * ω k

theorem lin_memLp (c : N → ℝ) : MemLp (lin c) 2 (white N) :=
  memLp_finset_sum _ (fun k _ => (white_memLp k).const_mul _)

theorem lin_cov (c c' : N → ℝ) : cov[lin c, lin c'; white N] = c ⬝ᵥ c' := by
  unfold lin
  rw [covariance_fun_sum_fun_sum (fun k => (white_memLp k).const_mul _) (fun k => (white_memLp k).const_mul _)]
  simp only [dotProduct]
  refine Finset.sum_congr rfl (fun k _ => ?_)
  rw [Finset.sum_eq_single k]
  · rw [covariance_const_mul_left, covariance_const_mul_right, white_cov, if_pos rfl, mul_one]
  · intro l _ hl
    rw [covariance_const_mul_left, covariance_const_mul_right, white_cov, if_neg (fun h => hl h.symm), mul_zero, mul_zero]
  · simp

theorem lin_elim {N' : Type} [Fintype N'] (a : N → ℝ) (b : N' → ℝ) (ω : N ⊕ N' → ℝ) :
    lin (Sum.elim a b) ω = lin a (ω ∘ Sum.inl) + lin b (ω ∘ Sum.inr) := by
  simp only [lin, Fintype.sum_sum_type, Sum.elim_inl, Sum.elim_inr, Function.comp]

theorem lin_zero (ω : N → ℝ) : lin 0 ω = 0 := by simp [lin]

theorem lin_add (c c' : N → ℝ) (ω : N → ℝ) : lin (c + c') ω = lin c ω + lin c' ω := by
  simp [lin, add_mul, Finset.sum_add_distrib]

end

variable {ι : Type} [DecidableEq ι]

theorem noiseBlock_posSemidef (L n : ℕ) : (noiseBlock L n).PosSemidef := by
  have h : noiseBlock L n = diagonal (fun p => noiseBlock L n p p) := by
    ext p q
    by_cases h : p = q
    · subst h; simp
    · rw [noiseBlock_off _ _ _ _ h, diagonal_apply_ne _ h]
  rw [h]
  exact PosSemidef.diagonal (fun p => noiseBlock_nonneg L n p)

/-- a series with the covariances `S` -/
theorem exists_steady {edges : List (SEdge ι ℝ)} (hl : ∀ e ∈ edges, e.time < 0) {L : ℕ} (hL : 0 < L) {vars : List ι}
    {m : ℕ → ι → ι → ℝ} (hc : Coeffs edges L vars m) {S : Matrix (Idx L vars.length) (Idx L vars.length) ℝ}
    (hA : Tendsto (fun k : ℕ => companion L vars m ^ k) atTop (𝓝 0))
    (hS : S = companion L vars m * S * (companion L vars m)ᵀ + noiseBlock L vars.length) :
    ∃ (Ω : Type) (_ : MeasurableSpace Ω) (μ : Measure Ω) (_ : IsProbabilityMeasure μ) (X : ι → ℤ → Ω → ℝ) (ε : ι → Ω → ℝ),
      Steady edges L μ X ε := by
  obtain ⟨B, hB⟩ := exists_sqrt (solution_posSemidef hA hS (noiseBlock_posSemidef _ _))
  let n := vars.length
  let K := Idx L n ⊕ Fin n
  let A := companion L vars m
  let noise : Fin n → K → ℝ := fun i => Sum.elim 0 (Pi.single i 1)
  let past : Idx L n → K → ℝ := fun p => Sum.elim (B p) 0
  let ε : ι → (K → ℝ) → ℝ := fun v ω =>
    if hv : v ∈ vars then lin (noise ⟨vars.idxOf v, List.idxOf_lt_length_of_mem hv⟩) ω else 0
  let Y : ι → ℤ → (K → ℝ) → ℝ := fun v t ω =>
    if hv : v ∈ vars then
      if hl : (-1 - t).toNat < L then lin (past (⟨(-1 - t).toNat, hl⟩, ⟨vars.idxOf v, List.idxOf_lt_length_of_mem hv⟩)) ω else 0
    else 0
  let X : ι → ℤ → (K → ℝ) → ℝ := fun v t ω => if t = 0 then inflow edges (fun w s => Y w s ω) v 0 + ε v ω else Y v t ω
  have hmem : ∀ v, Mentioned edges v → ∃ i : Fin n, v = vars[i] := by
    intro v hv
    obtain ⟨i, hi, h⟩ := List.mem_iff_getElem.1 ((hc.mem v).2 hv)
    exact ⟨⟨i, hi⟩, h.symm⟩
  have hε : ∀ i : Fin n, ε vars[i] = lin (noise i) := by
    intro i
    funext ω
    have h1 : vars[i] ∈ vars := List.getElem_mem _
    have h2 : vars.idxOf vars[i] = i := hc.nodup.idxOf_getElem i i.2
    simp only [ε, h1, dite_true, h2]
  have hY : ∀ p : Idx L n, Y vars[p.2] (-1 - (p.1 : ℤ)) = lin (past p) := by
    rintro ⟨l, i⟩
    funext ω
    have h1 : vars[i] ∈ vars := List.getElem_mem _
    have h2 : vars.idxOf vars[i] = i := hc.nodup.idxOf_getElem i i.2
    have h3 : (-1 - (-1 - ((l : ℕ) : ℤ))).toNat = l := by omega
    simp only [Y, h1, dite_true, h2, h3, l.2]
  have hX : ∀ p : Idx L n, X vars[p.2] (-1 - (p.1 : ℤ)) = lin (past p) := by
    intro p
    rw [← hY]
    funext ω
    have : ¬ (-1 - ((p.1 : ℕ) : ℤ)) = 0 := by omega
    simp only [X, this, if_false]
  have hX1 : ∀ p : Idx L n, X vars[p.2] (-1 - (p.1 : ℤ) + 1) =
      lin (Sum.elim ((A * B) p) (if p.1.val = 0 then Pi.single p.2 1 else 0)) := by
    rintro ⟨l, i⟩
    funext ω
    have h1 : lin (Sum.elim ((A * B) (l, i)) 0) ω = (A *ᵥ (fun r => lin (past r) ω)) (l, i) := by
      have hp : ∀ r, lin (past r) ω = lin (B r) (ω ∘ Sum.inl) := fun r =>
        (lin_elim (B r) 0 ω).trans (by rw [lin_zero, add_zero])
      rw [lin_elim, lin_zero, add_zero, show (fun r => lin (past r) ω) = fun r => lin (B r) (ω ∘ Sum.inl) from funext hp]
      simp only [lin, mulVec, dotProduct, mul_apply, Finset.sum_mul, Finset.mul_sum]
      rw [Finset.sum_comm]
      exact Finset.sum_congr rfl (fun _ _ => Finset.sum_congr rfl (fun _ _ => by ring))
    rw [companion_mulVec] at h1
    by_cases h0 : l.val = 0
    · have h2 : (-1 - ((l : ℕ) : ℤ) + 1) = 0 := by omega
      simp only [h0, dite_true] at h1
      have h3 : (Sum.elim ((A * B) (l, i)) (Pi.single i 1) : K → ℝ) = Sum.elim ((A * B) (l, i)) 0 + noise i := by
        funext k
        cases k
        · simp only [noise, Pi.add_apply, Sum.elim_inl, Pi.zero_apply, add_zero]
        · simp only [noise, Pi.add_apply, Sum.elim_inr, Pi.zero_apply, zero_add]
      simp only [h0, if_true]
      rw [h3, lin_add, h1]
      rw [h0] at h2
      rw [h2]
      simp only [X, if_true, hε]
      rw [hc.sum]
      congr 1
      refine Finset.sum_congr rfl (fun l' _ => Finset.sum_congr rfl (fun j _ => ?_))
      rw [← hY (l', j)]
      simp only [zero_sub]
    · simp only [h0, dite_false, if_false] at h1 ⊢
      rw [h1, ← hX]
      congr 1
      push_cast [Nat.one_le_iff_ne_zero.2 h0]
      ring
  have hpos : ∀ t : ℤ, -(L : ℤ) ≤ t → t < 0 → ∃ l : Fin L, t = -1 - (l : ℤ) := by
    intro t h1 h2
    exact ⟨⟨(-1 - t).toNat, by omega⟩, by simp only; omega⟩
  refine ⟨K → ℝ, inferInstance, white K, inferInstance, X, ε, ⟨?_, ?_, ?_, ?_, ?_, ?_⟩⟩
  · intro v hv t h1 h2
    obtain ⟨i, rfl⟩ := hmem v hv
    obtain ⟨l, rfl⟩ := hpos t h1 h2
    rw [hX (l, i)]
    exact lin_memLp _
  · intro v hv
    obtain ⟨i, rfl⟩ := hmem v hv
    rw [hε]
    exact lin_memLp _
  · intro v hv ω
    simp only [X, if_true]
    congr 1
    unfold inflow
    congr 1
    apply List.map_congr_left
    intro e he
    have := hl e (List.mem_filter.1 he).1
    have h0 : ¬ (0 + e.time = 0) := by omega
    simp only [h0, if_false]
  · intro v w hv hw
    obtain ⟨i, rfl⟩ := hmem v hv
    obtain ⟨j, rfl⟩ := hmem w hw
    rw [hε, hε, lin_cov]
    have : vars[i] = vars[j] ↔ i = j := by
      rw [Fin.getElem_fin, Fin.getElem_fin, hc.nodup.getElem_inj_iff]
      exact Fin.ext_iff.symm
    simp only [this, noise]
    rw [sumElim_dotProduct_sumElim, zero_dotProduct, zero_add, single_one_dotProduct, Pi.single_apply]
  · intro v w hv hw t h1 h2
    obtain ⟨i, rfl⟩ := hmem v hv
    obtain ⟨j, rfl⟩ := hmem w hw
    obtain ⟨l, rfl⟩ := hpos t h1 h2
    rw [hX (l, i), hε, lin_cov]
    simp only [noise, past]
    rw [sumElim_dotProduct_sumElim, zero_dotProduct, dotProduct_zero, zero_add]
  · intro v w hv hw s t h1 h2 h3 h4
    obtain ⟨i, rfl⟩ := hmem v hv
    obtain ⟨j, rfl⟩ := hmem w hw
    obtain ⟨l, rfl⟩ := hpos s h1 h2
    obtain ⟨l', rfl⟩ := hpos t h3 h4
    rw [hX1 (l, i), hX1 (l', j), hX (l, i), hX (l', j), lin_cov, lin_cov]
    have e1 : past (l, i) ⬝ᵥ past (l', j) = S (l, i) (l', j) := by
      rw [← hB]
      simp only [past]
      rw [sumElim_dotProduct_sumElim, zero_dotProduct, add_zero]
      simp only [dotProduct, mul_apply, transpose_apply]
      rfl
    rw [e1]
    conv_rhs => rw [hS]
    have e2 : A * S * Aᵀ = (A * B) * (A * B)ᵀ := by
      rw [transpose_mul, ← hB]
      simp only [Matrix.mul_assoc]
    rw [show companion L vars m = A from rfl, e2]
    rw [sumElim_dotProduct_sumElim, Matrix.add_apply]
    congr 1
    simp only [noiseBlock, Matrix.of_apply]
    by_cases g1 : l.val = 0
    · by_cases g2 : l'.val = 0
      · by_cases g3 : i = j
        · subst g3; simp [g1, g2]
        · simp [g1, g2, g3, Pi.single_apply]
      · simp [g2]
    · simp [g1]

end Sample
end Verif
