import Verif.Sample.InitialLemmas3

/-!
# The covariances of generated series with any lags
-/

namespace Verif
namespace Sample
open Matrix Filter Topology MeasureTheory ProbabilityTheory
variable {ι : Type} [DecidableEq ι]

/-- the window of the last `L` values, where the values before the start are the initial values -/
theorem window_step {Ω : Type} {edges : List (SEdge ι ℝ)} (hl : ∀ e ∈ edges, e.time < 0) {L : ℕ} {vars : List ι}
    {m : ℕ → ι → ι → ℝ} (hc : Coeffs edges L vars m) {size : ℕ} {init : ι → Ω → ℝ} {rand : ℕ → Ω → ℝ} {X : ι → ℕ → Ω → ℝ}
    (hX : ∀ ω, TimeSeries edges size (fun v => init v ω) (fun v t => rand ((t - 1) * vars.length + vars.idxOf v) ω)
      (fun v t => X v t ω)) (t : ℕ) (ht : t + 1 < size) (p : Idx L vars.length) :
    X vars[p.2] (t + 1 - p.1) = fun ω => (∑ r : Idx L vars.length, companion L vars m p r * X vars[r.2] (t - r.1) ω) +
      if p.1.val = 0 then rand (t * vars.length + p.2) ω else 0 := by
  have hmem : ∀ i : Fin vars.length, Mentioned edges vars[i] := fun i => (hc.mem _).1 (List.getElem_mem _)
  obtain ⟨l, i⟩ := p
  funext ω
  have h1 := companion_mulVec L vars m (fun r => X vars[r.2] (t - r.1) ω) l i
  simp only [mulVec, dotProduct] at h1
  rw [h1]
  by_cases h0 : l.val = 0
  · simp only [h0, dite_true, if_true, Nat.sub_zero]
    have h2 := (hX ω _ (hmem i)).2 (t + 1) (by omega) ht
    beta_reduce at h2
    have e1 : vars.idxOf vars[i] = i := hc.nodup.idxOf_getElem i i.2
    rw [e1, Nat.add_sub_cancel] at h2
    rw [h2]
    congr 1
    have e2 := hc.sum (fun w s => X w s.toNat ω) vars[i] (t + 1)
    have e3 : ∀ l' : Fin L, ((t : ℤ) + 1 - 1 - (l' : ℕ)).toNat = t - l' := fun l' => by omega
    simp only [e3] at e2
    rw [← e2]
    unfold inflow
    rw [List.sum_eq_foldl, List.foldl_map]
    apply List.foldl_ext
    intro acc e he
    have he1 := (List.mem_filter.1 he).1
    have he2 := hl e he1
    have e6 : ((t : ℤ) + 1 + e.time).toNat = t + 1 - e.time.natAbs := by omega
    beta_reduce
    rw [e6]
    split
    · rfl
    · next hgt =>
      rw [show t + 1 - e.time.natAbs = 0 by omega]
      have := (hX ω e.src ⟨e, he1, Or.inl rfl⟩).1
      beta_reduce at this
      rw [this]
  · simp only [h0, dite_false, if_false, add_zero]
    congr 1
    omega

/-- covariances of the window, step by step -/
theorem window_cov {Ω : Type} [MeasurableSpace Ω] {μ : Measure Ω} [IsProbabilityMeasure μ] {edges : List (SEdge ι ℝ)}
    (hl : ∀ e ∈ edges, e.time < 0) {L : ℕ} {vars : List ι} {m : ℕ → ι → ι → ℝ} (hc : Coeffs edges L vars m) {size : ℕ}
    {σ : Fin vars.length → ℝ} {init : ι → Ω → ℝ} {rand : ℕ → Ω → ℝ} {X : ι → ℕ → Ω → ℝ} (hdr : Draws vars size σ μ init rand)
    (hX : ∀ ω, TimeSeries edges size (fun v => init v ω) (fun v t => rand ((t - 1) * vars.length + vars.idxOf v) ω)
      (fun v t => X v t ω)) {S : Matrix (Idx L vars.length) (Idx L vars.length) ℝ}
    (hS : S = companion L vars m * S * (companion L vars m)ᵀ + noiseBlock L vars.length) (t : ℕ) (ht : t < size) :
    (∀ p : Idx L vars.length, MemLp (X vars[p.2] (t - p.1)) 2 μ) ∧
    (∀ p : Idx L vars.length, ∀ k, t * vars.length ≤ k → k < (size - 1) * vars.length →
      cov[X vars[p.2] (t - p.1), rand k; μ] = 0) ∧
    (Matrix.of fun p q : Idx L vars.length => cov[X vars[p.2] (t - p.1), X vars[q.2] (t - q.1); μ]) =
      S + companion L vars m ^ t * ((Matrix.of fun p q => if p.2 = q.2 then σ p.2 ^ 2 else 0) - S) * (companion L vars m ^ t)ᵀ := by
  have hmem : ∀ i : Fin vars.length, Mentioned edges vars[i] := fun i => (hc.mem _).1 (List.getElem_mem _)
  induction t with
  | zero =>
    have h0 : ∀ i : Fin vars.length, X vars[i] 0 = init vars[i] := fun i => funext fun ω => (hX ω _ (hmem i)).1
    simp only [Nat.zero_sub, h0, hdr.initial]
    refine ⟨fun p => hdr.squareInit _, fun p k _ hk => hdr.fresh _ k hk, ?_⟩
    simp
  | succ t ih =>
    obtain ⟨ih1, ih2, ih3⟩ := ih (by omega) hmem
    let A := companion L vars m
    let W : Idx L vars.length → Ω → ℝ := fun r => X vars[r.2] (t - r.1)
    let η : Idx L vars.length → Ω → ℝ := fun p => if p.1.val = 0 then rand (t * vars.length + p.2) else fun _ => 0
    have hlt : ∀ i : Fin vars.length, t * vars.length + i < (size - 1) * vars.length := by
      intro i
      have : (t + 1) * vars.length ≤ (size - 1) * vars.length := Nat.mul_le_mul_right _ (by omega)
      have := i.2
      rw [Nat.add_mul] at *
      omega
    have hstep : ∀ p : Idx L vars.length, X vars[p.2] (t + 1 - p.1) = fun ω => (∑ r, A p r * W r ω) + η p ω := by
      intro p
      rw [window_step hl hc hX t ht p]
      funext ω
      congr 1
      by_cases h : p.1.val = 0 <;> simp [η, h]
    have hη : ∀ p, MemLp (η p) 2 μ := by
      intro p
      by_cases h : p.1.val = 0
      · simp only [η, h, if_true]; exact hdr.squareNoise _ (hlt _)
      · simp only [η, h, if_false]; exact memLp_const 0
    have hAW : ∀ p, ∀ r, MemLp (fun ω => A p r * W r ω) 2 μ := fun p r => (ih1 r).const_mul _
    have hsum : ∀ p, MemLp (fun ω => ∑ r, A p r * W r ω) 2 μ := fun p => memLp_finset_sum _ (fun r _ => hAW p r)
    have hsr : ∀ p k, t * vars.length ≤ k → k < (size - 1) * vars.length →
        cov[fun ω => ∑ r, A p r * W r ω, rand k; μ] = 0 := by
      intro p k hk1 hk2
      rw [covariance_fun_sum_left (fun r => hAW p r) (hdr.squareNoise k hk2)]
      exact Finset.sum_eq_zero (fun r _ => by rw [covariance_const_mul_left, ih2 r k hk1 hk2, mul_zero])
    have hsη : ∀ p q, cov[fun ω => ∑ r, A p r * W r ω, η q; μ] = 0 := by
      intro p q
      by_cases h : q.1.val = 0
      · simp only [η, h, if_true]; exact hsr p _ (by omega) (hlt _)
      · simp only [η, h, if_false]; exact covariance_const_right 0
    have hηη : ∀ p q, cov[η p, η q; μ] = noiseBlock L vars.length p q := by
      intro p q
      simp only [noiseBlock, Matrix.of_apply]
      by_cases h : p.1.val = 0
      · by_cases h' : q.1.val = 0
        · simp only [η, h, h', if_true, true_and]
          rw [hdr.noise _ _ (hlt _) (hlt _)]
          simp only [Nat.add_left_cancel_iff, Fin.val_inj]
        · simp only [η, h, h', if_true, if_false, true_and, false_and]
          exact covariance_const_right 0
      · simp only [η, h, if_false, false_and]
        exact covariance_const_left 0
    refine ⟨fun p => ?_, fun p k hk1 hk2 => ?_, ?_⟩
    · rw [hstep p]
      exact (hsum p).add (hη p)
    · rw [hstep p]
      have e1 := covariance_add_left (μ := μ) (hsum p) (hη p) (hdr.squareNoise k hk2)
      refine Eq.trans e1 ?_
      rw [Nat.add_mul, Nat.one_mul] at hk1
      rw [hsr p k (by omega) hk2, zero_add]
      by_cases h : p.1.val = 0
      · simp only [η, h, if_true]
        rw [hdr.noise _ _ (hlt _) hk2, if_neg]
        have := p.2.2
        omega
      · simp only [η, h, if_false]
        exact covariance_const_left 0
    · have hrec : (Matrix.of fun p q : Idx L vars.length => cov[X vars[p.2] (t + 1 - p.1), X vars[q.2] (t + 1 - q.1); μ]) =
          A * (Matrix.of fun p q : Idx L vars.length => cov[W p, W q; μ]) * Aᵀ + noiseBlock L vars.length := by
        ext p q
        simp only [Matrix.of_apply]
        rw [hstep p, hstep q]
        have h2 : cov[fun ω => (∑ r, A p r * W r ω) + η p ω, fun ω => (∑ r, A q r * W r ω) + η q ω; μ] =
            cov[fun ω => ∑ r, A p r * W r ω, fun ω => ∑ r, A q r * W r ω; μ] + noiseBlock L vars.length p q := by
          have e1 := covariance_add_left (μ := μ) (hsum p) (hη p) ((hsum q).add (hη q))
          have e2 := covariance_add_right (μ := μ) (hsum p) (hsum q) (hη q)
          have e3 := covariance_add_right (μ := μ) (hη p) (hsum q) (hη q)
          rw [hsη, add_zero] at e2
          rw [hηη, covariance_comm (X := η p) (Y := fun ω => ∑ r, A q r * W r ω), hsη, zero_add] at e3
          rw [e2, e3] at e1
          exact e1
        rw [h2, Matrix.add_apply]
        congr 1
        rw [covariance_fun_sum_fun_sum (fun r => hAW p r) (fun r => hAW q r)]
        simp only [mul_apply, transpose_apply, Finset.sum_mul, Matrix.of_apply]
        rw [Finset.sum_comm]
        refine Finset.sum_congr rfl (fun s _ => Finset.sum_congr rfl (fun r _ => ?_))
        rw [covariance_const_mul_left, covariance_const_mul_right]
        ring
      rw [hrec, show (Matrix.of fun p q : Idx L vars.length => cov[W p, W q; μ]) = _ from ih3]
      generalize (Matrix.of fun p q : Idx L vars.length => if p.2 = q.2 then σ p.2 ^ 2 else 0) - S = D
      conv_rhs => rw [hS]
      rw [show companion L vars m = A from rfl, pow_succ', transpose_mul]
      noncomm_ring

end Sample
end Verif
