import Verif.Sample.InitialLemmas
import Verif.Sample.Props

/-!
# Generated series with one lag, where no two edges share a source
-/

namespace Verif
namespace Sample
open Matrix Filter Topology MeasureTheory ProbabilityTheory
variable {ι : Type} [DecidableEq ι]

theorem coeff_edge {edges : List (SEdge ι ℝ)} {L : ℕ} {vars : List ι} {m : ℕ → ι → ι → ℝ} (hc : Coeffs edges L vars m)
    (l : Fin L) (a : ι) (j : Fin vars.length) (h : m l a vars[j] ≠ 0) : ∃ e ∈ edges, e.dst = a ∧ e.src = vars[j] := by
  by_contra hcon
  push Not at hcon
  apply h
  have h1 := hc.sum (fun w s => if w = vars[j] ∧ s = -1 - (l : ℤ) then 1 else 0) a 0
  have h2 : inflow edges (fun w s => if w = vars[j] ∧ s = -1 - (l : ℤ) then 1 else 0) a 0 = 0 := by
    unfold inflow
    apply List.sum_eq_zero
    intro y hy
    obtain ⟨e, he, rfl⟩ := List.mem_map.1 hy
    obtain ⟨he, hd⟩ := List.mem_filter.1 he
    have := hcon e he (by simpa using hd)
    beta_reduce
    rw [if_neg (fun h => this h.1), mul_zero]
  rw [h2, Finset.sum_eq_single l, Finset.sum_eq_single j] at h1
  · simp at h1
    exact h1.symm
  · intro k _ hk
    have : ¬ vars[k] = vars[j] := fun h => hk (by
      rw [Fin.getElem_fin, Fin.getElem_fin, hc.nodup.getElem_inj_iff] at h
      exact Fin.ext h)
    rw [if_neg (fun h => this h.1), mul_zero]
  · simp
  · intro k _ hk
    refine Finset.sum_eq_zero (fun i _ => ?_)
    rw [if_neg (fun h => hk (Fin.ext (by omega))), mul_zero]
  · simp

/-- the step of an uncorrelated family with unit noise -/
theorem cov_step {Ω : Type} [MeasurableSpace Ω] {μ : Measure Ω} [IsProbabilityMeasure μ] {n : ℕ} {a : Fin n → Fin n → ℝ}
    {d : Fin n → ℝ} {Z r : Fin n → Ω → ℝ} (hZ : ∀ j, MemLp (Z j) 2 μ) (hr : ∀ j, MemLp (r j) 2 μ)
    (hZZ : ∀ i j, cov[Z i, Z j; μ] = if i = j then d i else 0) (hZr : ∀ i j, cov[Z i, r j; μ] = 0)
    (hrr : ∀ i j, cov[r i, r j; μ] = if i = j then 1 else 0) (i i' : Fin n) :
    cov[fun ω => (∑ j, a i j * Z j ω) + r i ω, fun ω => (∑ j, a i' j * Z j ω) + r i' ω; μ] =
      (∑ j, a i j * a i' j * d j) + if i = i' then 1 else 0 := by
  have hA : ∀ i j, MemLp (fun ω => a i j * Z j ω) 2 μ := fun i j => (hZ j).const_mul _
  have hsum : ∀ i, MemLp (fun ω => ∑ j, a i j * Z j ω) 2 μ := fun i => memLp_finset_sum _ (fun j _ => hA i j)
  have hs : ∀ i k, cov[fun ω => ∑ j, a i j * Z j ω, r k; μ] = 0 := by
    intro i k
    rw [covariance_fun_sum_left (fun j => hA i j) (hr k)]
    exact Finset.sum_eq_zero (fun j _ => by rw [covariance_const_mul_left, hZr, mul_zero])
  have e1 := covariance_add_left (μ := μ) (hsum i) (hr i) ((hsum i').add (hr i'))
  have e2 := covariance_add_right (μ := μ) (hsum i) (hsum i') (hr i')
  have e3 := covariance_add_right (μ := μ) (hr i) (hsum i') (hr i')
  rw [hs, add_zero] at e2
  rw [hrr, covariance_comm (X := r i) (Y := fun ω => ∑ j, a i' j * Z j ω), hs, zero_add] at e3
  rw [e2, e3] at e1
  refine Eq.trans e1 ?_
  congr 1
  rw [covariance_fun_sum_fun_sum (fun j => hA i j) (fun j => hA i' j)]
  refine Finset.sum_congr rfl (fun j _ => ?_)
  rw [Finset.sum_eq_single j]
  · rw [covariance_const_mul_left, covariance_const_mul_right, hZZ, if_pos rfl, mul_assoc]
  · intro k _ hk
    rw [covariance_const_mul_left, covariance_const_mul_right, hZZ, if_neg (fun h => hk h.symm), mul_zero, mul_zero]
  · simp

/-- a series with lag one, uncorrelated noise of variance one and initial values whose covariances are diagonal and solve the
equation keeps these covariances -/
theorem lagOne_cov {Ω : Type} [MeasurableSpace Ω] {μ : Measure Ω} [IsProbabilityMeasure μ] {edges : List (SEdge ι ℝ)}
    (h1 : ∀ e ∈ edges, e.time = -1) {vars : List ι} {m : ℕ → ι → ι → ℝ} (hc : Coeffs edges 1 vars m)
    {d : Fin vars.length → ℝ}
    (hd : ∀ i i', (if i = i' then d i else 0) =
      (∑ j : Fin vars.length, m 0 vars[i] vars[j] * m 0 vars[i'] vars[j] * d j) + if i = i' then 1 else 0)
    {size : ℕ} {init : ι → Ω → ℝ} {rand : ℕ → Ω → ℝ} {col : Ω → ι → ℕ → ℝ}
    (hinit : ∀ i : Fin vars.length, MemLp (init vars[i]) 2 μ)
    (hrand : ∀ k, k < (size - 1) * vars.length → MemLp (rand k) 2 μ)
    (hii : ∀ i j : Fin vars.length, cov[init vars[i], init vars[j]; μ] = if i = j then d i else 0)
    (hrr : ∀ k k', k < (size - 1) * vars.length → k' < (size - 1) * vars.length →
      cov[rand k, rand k'; μ] = if k = k' then 1 else 0)
    (hir : ∀ i : Fin vars.length, ∀ k, k < (size - 1) * vars.length → cov[init vars[i], rand k; μ] = 0)
    (hcol : ∀ ω, TimeSeries edges size (fun v => init v ω) (fun v t => rand ((t - 1) * vars.length + vars.idxOf v) ω) (col ω))
    (t : ℕ) (ht : t < size) :
    (∀ i : Fin vars.length, MemLp (fun ω => col ω vars[i] t) 2 μ) ∧
    (∀ i j : Fin vars.length, cov[fun ω => col ω vars[i] t, fun ω => col ω vars[j] t; μ] = if i = j then d i else 0) ∧
    ∀ i : Fin vars.length, ∀ k, t * vars.length ≤ k → k < (size - 1) * vars.length →
      cov[fun ω => col ω vars[i] t, rand k; μ] = 0 := by
  have hmem : ∀ i : Fin vars.length, Mentioned edges vars[i] := fun i => (hc.mem _).1 (List.getElem_mem _)
  induction t with
  | zero =>
    have h0 : ∀ i : Fin vars.length, (fun ω => col ω vars[i] 0) = init vars[i] := by
      intro i
      funext ω
      exact (hcol ω _ (hmem i)).1
    simp only [h0]
    exact ⟨hinit, hii, fun i k _ hk => hir i k hk⟩
  | succ t ih =>
    obtain ⟨ih1, ih2, ih3⟩ := ih (by omega) hmem
    have hlt : ∀ i : Fin vars.length, t * vars.length + i < (size - 1) * vars.length := by
      intro i
      have : (t + 1) * vars.length ≤ (size - 1) * vars.length := Nat.mul_le_mul_right _ (by omega)
      have := i.2
      rw [Nat.add_mul] at *
      omega
    have hstep : ∀ i : Fin vars.length, (fun ω => col ω vars[i] (t + 1)) =
        fun ω => (∑ j : Fin vars.length, m 0 vars[i] vars[j] * col ω vars[j] t) + rand (t * vars.length + i) ω := by
      intro i
      funext ω
      rw [(hcol ω _ (hmem i)).2 (t + 1) (by omega) ht]
      beta_reduce
      have e1 : vars.idxOf vars[i] = i := hc.nodup.idxOf_getElem i i.2
      rw [e1, Nat.add_sub_cancel]
      congr 1
      have e2 := hc.sum (fun w s => col ω w s.toNat) vars[i] (t + 1)
      simp only [Fin.sum_univ_one, Fin.val_zero, Nat.cast_zero, sub_zero] at e2
      have e3 : ((t : ℤ) + 1 - 1).toNat = t := by omega
      simp only [e3] at e2
      rw [← e2]
      unfold inflow
      rw [List.sum_eq_foldl, List.foldl_map]
      apply List.foldl_ext
      intro acc e he
      have he' := h1 e (List.mem_filter.1 he).1
      have e4 : e.time.natAbs ≤ t + 1 := by omega
      have e5 : t + 1 - e.time.natAbs = t := by omega
      have e6 : ((t : ℤ) + 1 + e.time).toNat = t := by omega
      beta_reduce
      rw [if_pos e4, e5, e6]
    simp only [hstep]
    have hr : ∀ i : Fin vars.length, MemLp (rand (t * vars.length + i)) 2 μ := fun i => hrand _ (hlt i)
    have hA : ∀ i j : Fin vars.length, MemLp (fun ω => m 0 vars[i] vars[j] * col ω vars[j] t) 2 μ :=
      fun i j => (ih1 j).const_mul _
    have hsum : ∀ i : Fin vars.length, MemLp (fun ω => ∑ j : Fin vars.length, m 0 vars[i] vars[j] * col ω vars[j] t) 2 μ :=
      fun i => memLp_finset_sum _ (fun j _ => hA i j)
    refine ⟨fun i => (hsum i).add (hr i), fun i j => ?_, fun i k hk1 hk2 => ?_⟩
    · rw [cov_step (a := fun i j => m 0 vars[i] vars[j]) (Z := fun j ω => col ω vars[j] t)
        (r := fun i => rand (t * vars.length + i)) ih1 hr ih2 (fun i j => ih3 i _ (by omega) (hlt j))
        (fun i j => by
          rw [hrr _ _ (hlt i) (hlt j)]
          simp only [Nat.add_left_cancel_iff, Fin.val_inj]), hd i j]
    · have e1 := covariance_add_left (μ := μ) (hsum i) (hr i) (hrand k hk2)
      refine Eq.trans e1 ?_
      rw [covariance_fun_sum_left (fun j => hA i j) (hrand k hk2), Finset.sum_eq_zero, zero_add, hrr _ _ (hlt i) hk2, if_neg]
      · have := i.2
        rw [Nat.add_mul] at hk1
        omega
      · intro j _
        rw [covariance_const_mul_left, ih3 j k (by rw [Nat.add_mul] at hk1; omega) hk2, mul_zero]

end Sample
end Verif
